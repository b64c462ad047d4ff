import Verif.Tensor.Views
import Mathlib.Tactic.Ring
import Mathlib.Tactic.Linarith
import Mathlib.Algebra.BigOperators.Fin

/-!
# C89: arithmetic on views — the loops
-/

namespace Verif.Views

open Verif.Tensor (MatRange)

/-- The address of element `i` of a vector view. -/
def elemV (v : VView) (i : Nat) : Nat := v.off + v.r.stride * i

/-- The address of element `(i,j)` of a matrix view. -/
def elemM (v : MView) (i j : Nat) : Nat := v.off + (i * v.r.rs + j * v.r.cs)

section
variable {K : Type*} [Field K] [DecidableEq K]

/-- The value stored at an address. -/
def val (m : List K) (a : Nat) : K := m[a]?.getD 0

theorem read_ok {m : List K} {a : Nat} (h : a < m.length) : read m a = .ok (val m a) := by
  simp [read, val, List.getElem?_eq_getElem h]

theorem val_set {m : List K} {a : Nat} (h : a < m.length) (x : K) (p : Nat) :
    val (m.set a x) p = if a = p then x else val m p := by
  unfold val
  rw [List.getElem?_set]
  split
  · rename_i e
    subst e
    simp [h]
  · rfl

theorem val_append {m l : List K} {a : Nat} (h : a < m.length) : val (m ++ l) a = val m a := by
  unfold val
  rw [List.getElem?_append_left h]

theorem applyLoop_spec (f : K → K → K) (ia ib : Nat → Nat) :
    ∀ (n k : Nat) (m : List K),
      (∀ i, k ≤ i → i < k + n → ia i < m.length ∧ ib i < m.length) →
      (∀ i j, k ≤ i → i < j → j < k + n → ia i ≠ ia j ∧ ia i ≠ ib j) →
      ∃ m', applyLoop f ia ib k n m = .ok m' ∧ m'.length = m.length ∧
        (∀ i, k ≤ i → i < k + n → val m' (ia i) = f (val m (ia i)) (val m (ib i))) ∧
        (∀ p, (∀ i, k ≤ i → i < k + n → ia i ≠ p) → val m' p = val m p) := by
  intro n
  induction n with
  | zero =>
    intro k m _ _
    exact ⟨m, rfl, rfl, fun i h1 h2 => by omega, fun p _ => rfl⟩
  | succ n ih =>
    intro k m hb ha
    obtain ⟨h1, h2⟩ := hb k (le_refl k) (by omega)
    have hw : write m (ia k) (f (val m (ia k)) (val m (ib k))) =
        .ok (m.set (ia k) (f (val m (ia k)) (val m (ib k)))) := by simp [write, h1]
    obtain ⟨m', e, l, hv, hr⟩ := ih (k + 1)
      (m.set (ia k) (f (val m (ia k)) (val m (ib k))))
      (fun i a b => by rw [List.length_set]; exact hb i (by omega) (by omega))
      (fun i j a b c => ha i j (by omega) b (by omega))
    refine ⟨m', ?_, by rw [l, List.length_set], ?_, ?_⟩
    · rw [applyLoop, read_ok h1, Res.bind_ok, read_ok h2, Res.bind_ok, hw, Res.bind_ok, e]
    · intro i a b
      by_cases hik : i = k
      · subst hik
        rw [hr (ia i) (fun j c d => ((ha i j (le_refl i) (by omega) (by omega)).1).symm),
          val_set h1, if_pos rfl]
      · obtain ⟨h3, h4⟩ := ha k i (le_refl k) (by omega) (by omega)
        rw [hv i (by omega) (by omega), val_set h1, val_set h1, if_neg h3, if_neg h4]
    · intro p hp
      rw [hr p (fun i a b => hp i (by omega) (by omega)), val_set h1,
        if_neg (hp k (le_refl k) (by omega))]

theorem mapLoop_spec (f : K → K) (ia : Nat → Nat) :
    ∀ (n k : Nat) (m : List K),
      (∀ i, k ≤ i → i < k + n → ia i < m.length) →
      (∀ i j, k ≤ i → i < j → j < k + n → ia i ≠ ia j) →
      ∃ m', mapLoop f ia k n m = .ok m' ∧ m'.length = m.length ∧
        (∀ i, k ≤ i → i < k + n → val m' (ia i) = f (val m (ia i))) ∧
        (∀ p, (∀ i, k ≤ i → i < k + n → ia i ≠ p) → val m' p = val m p) := by
  intro n
  induction n with
  | zero =>
    intro k m _ _
    exact ⟨m, rfl, rfl, fun i h1 h2 => by omega, fun p _ => rfl⟩
  | succ n ih =>
    intro k m hb ha
    have h1 := hb k (le_refl k) (by omega)
    have hw : write m (ia k) (f (val m (ia k))) =
        .ok (m.set (ia k) (f (val m (ia k)))) := by simp [write, h1]
    obtain ⟨m', e, l, hv, hr⟩ := ih (k + 1) (m.set (ia k) (f (val m (ia k))))
      (fun i a b => by rw [List.length_set]; exact hb i (by omega) (by omega))
      (fun i j a b c => ha i j (by omega) b (by omega))
    refine ⟨m', ?_, by rw [l, List.length_set], ?_, ?_⟩
    · rw [mapLoop, read_ok h1, Res.bind_ok, hw, Res.bind_ok, e]
    · intro i a b
      by_cases hik : i = k
      · subst hik
        rw [hr (ia i) (fun j c d => (ha i j (le_refl i) (by omega) (by omega)).symm),
          val_set h1, if_pos rfl]
      · have h3 := ha k i (le_refl k) (by omega) (by omega)
        rw [hv i (by omega) (by omega), val_set h1, if_neg h3]
    · intro p hp
      rw [hr p (fun i a b => hp i (by omega) (by omega)), val_set h1,
        if_neg (hp k (le_refl k) (by omega))]

/-! ### Iterators -/

theorem vOff_eq (r : VecRange) (k : Nat) : vOff r k = r.stride * k := by
  induction k with
  | zero => rfl
  | succ k ih => rw [vOff, ih, Nat.mul_succ]

theorem vIter_eq (v : VView) (k : Nat) : vIter v k = elemV v k := by
  unfold vIter elemV; rw [vOff_eq]

theorem ptr_eq {v : VView} (h : v.r.stride = 1) (k : Nat) : ptr v.off k = elemV v k := by
  unfold ptr elemV; rw [h, one_mul]

theorem mIt_eq (r : MatRange) (h : 0 < r.rn) (k : Nat) :
    mIt r k = (k, r.rs * (k % r.rn) + r.cs * (k / r.rn)) := by
  induction k with
  | zero => simp [mIt]
  | succ k ih =>
    have hd := Nat.div_add_mod k r.rn
    have hm := Nat.mod_lt k h
    rw [mIt, ih]
    dsimp only
    by_cases hl : k % r.rn + 1 = r.rn
    · have e : k + 1 = r.rn * (k / r.rn + 1) := by rw [Nat.mul_succ]; omega
      have e1 : (k + 1) % r.rn = 0 := by rw [e]; exact Nat.mul_mod_right _ _
      have e2 : (k + 1) / r.rn = k / r.rn + 1 := by
        conv_lhs => rw [e]
        exact Nat.mul_div_cancel_left _ h
      rw [if_pos e1, e1, e2]
      congr 1
      have e3 : r.rs * (k % r.rn) + r.rs = r.rs * r.rn := by
        conv_rhs => rw [← hl]
        rw [Nat.mul_succ]
      rw [Nat.mul_succ, Nat.mul_zero]
      omega
    · have e : k + 1 = r.rn * (k / r.rn) + (k % r.rn + 1) := by omega
      have e1 : (k + 1) % r.rn = k % r.rn + 1 := by
        conv_lhs => rw [e]
        rw [Nat.mul_add_mod, Nat.mod_eq_of_lt (by omega)]
      have e2 : (k + 1) / r.rn = k / r.rn := by
        conv_lhs => rw [e]
        rw [Nat.mul_add_div h, Nat.div_eq_of_lt (show k % r.rn + 1 < r.rn by omega), Nat.add_zero]
      rw [if_neg (by omega), e1, e2]
      congr 1
      rw [Nat.mul_succ]
      omega

theorem mIter_eq (v : MView) (h : 0 < v.r.rn) (k : Nat) :
    mIter v k = elemM v (k % v.r.rn) (k / v.r.rn) := by
  unfold mIter elemM
  rw [mIt_eq v.r h]
  dsimp only
  rw [Nat.mul_comm v.r.rs, Nat.mul_comm v.r.cs]

/-- A view whose elements lie in the memory, no two at the same address. -/
structure VProper (m : List K) (v : VView) : Prop where
  inside : ∀ i, i < v.r.ext → elemV v i < m.length
  pos : 0 < v.r.stride

/-- A view whose elements lie in the memory, no two at the same address. -/
structure MProper (m : List K) (v : MView) : Prop where
  inside : ∀ i j, i < v.r.rn → j < v.r.cn → elemM v i j < m.length
  inj : ∀ i j i' j', i < v.r.rn → j < v.r.cn → i' < v.r.rn → j' < v.r.cn →
    elemM v i j = elemM v i' j' → i = i' ∧ j = j'

/-- Two vector views share an element only at the same position (for example: they are disjoint, or
they are the same view). -/
def VApart (a b : VView) : Prop :=
  ∀ i j, i < a.r.ext → j < b.r.ext → elemV a i = elemV b j → i = j

/-- The same for matrix views. -/
def MApart (a b : MView) : Prop :=
  ∀ i j i' j', i < a.r.rn → j < a.r.cn → i' < b.r.rn → j' < b.r.cn →
    elemM a i j = elemM b i' j' → i = i' ∧ j = j'

theorem elemV_inj {v : VView} (h : 0 < v.r.stride) {i j : Nat} (e : elemV v i = elemV v j) :
    i = j := by
  unfold elemV at e
  exact Nat.eq_of_mul_eq_mul_left h (by omega)

/-- What an operation with one operand leaves behind: element `i` of `a` has become `g i`, all else
is as it was. -/
structure VDone (a : VView) (g : Nat → K) (m m' : List K) : Prop where
  len : m'.length = m.length
  new : ∀ i, i < a.r.ext → val m' (elemV a i) = g i
  old : ∀ p, (∀ i, i < a.r.ext → elemV a i ≠ p) → val m' p = val m p

/-- The same for matrix views. -/
structure MDone (a : MView) (g : Nat → Nat → K) (m m' : List K) : Prop where
  len : m'.length = m.length
  new : ∀ i j, i < a.r.rn → j < a.r.cn → val m' (elemM a i j) = g i j
  old : ∀ p, (∀ i j, i < a.r.rn → j < a.r.cn → elemM a i j ≠ p) → val m' p = val m p

theorem vCount_eq {v : VView} (h : 0 < v.r.stride) : vCount v.r = v.r.ext := by
  unfold vCount; rw [if_neg (by omega)]

/-- A loop over the elements of `a`, with any pair of iterators that visit the elements in order. -/
theorem v_apply (f : K → K → K) {a b : VView} {m : List K} (ha : VProper m a) (hb : VProper m b)
    (hs : a.r.ext = b.r.ext) (hab : VApart a b) {ia ib : Nat → Nat}
    (hia : ∀ k, ia k = elemV a k) (hib : ∀ k, ib k = elemV b k) :
    ∃ m', applyLoop f ia ib 0 a.r.ext m = .ok m' ∧
      VDone a (fun i => f (val m (elemV a i)) (val m (elemV b i))) m m' := by
  obtain ⟨m', e, l, hv, hr⟩ := applyLoop_spec f ia ib a.r.ext 0 m
    (fun i _ h => by
      rw [hia, hib]; exact ⟨ha.inside i (by omega), hb.inside i (by omega)⟩)
    (fun i j _ h h2 => by
      rw [hia, hia, hib]
      exact ⟨fun e => by have := elemV_inj ha.pos e; omega,
        fun e => by have := hab i j (by omega) (by omega) e; omega⟩)
  refine ⟨m', e, l, fun i h => ?_, fun p hp => hr p fun i _ h => ?_⟩
  · have := hv i (Nat.zero_le i) (by omega)
    rwa [hia, hib] at this
  · rw [hia]; exact hp i (by omega)

theorem v_map (f : K → K) {a : VView} {m : List K} (ha : VProper m a) {ia : Nat → Nat}
    (hia : ∀ k, ia k = elemV a k) :
    ∃ m', mapLoop f ia 0 a.r.ext m = .ok m' ∧ VDone a (fun i => f (val m (elemV a i))) m m' := by
  obtain ⟨m', e, l, hv, hr⟩ := mapLoop_spec f ia a.r.ext 0 m
    (fun i _ h => by rw [hia]; exact ha.inside i (by omega))
    (fun i j _ h h2 => by
      rw [hia, hia]
      exact fun e => by have := elemV_inj ha.pos e; omega)
  refine ⟨m', e, l, fun i h => ?_, fun p hp => hr p fun i _ h => ?_⟩
  · have := hv i (Nat.zero_le i) (by omega)
    rwa [hia] at this
  · rw [hia]; exact hp i (by omega)

/-- A way to run through the `rn*cn` positions of a matrix. -/
structure Order (rn cn : Nat) (row col : Nat → Nat) : Prop where
  row_lt : ∀ k, k < rn * cn → row k < rn
  col_lt : ∀ k, k < rn * cn → col k < cn
  once : ∀ k l, k < rn * cn → l < rn * cn → row k = row l → col k = col l → k = l
  all : ∀ i j, i < rn → j < cn → ∃ k, k < rn * cn ∧ row k = i ∧ col k = j

/-- Column by column. -/
theorem order_col (rn cn : Nat) : Order rn cn (fun k => k % rn) (fun k => k / rn) where
  row_lt k h := Nat.mod_lt k (Nat.pos_of_ne_zero (by rintro rfl; simp at h))
  col_lt k h := Nat.div_lt_of_lt_mul h
  once k l _ _ h1 h2 := by
    have a := Nat.div_add_mod k rn
    have b := Nat.div_add_mod l rn
    rw [h1, h2] at a
    omega
  all i j hi hj := by
    refine ⟨i + rn * j, ?_, ?_, ?_⟩
    · calc i + rn * j < rn + rn * j := by omega
        _ = rn * (j + 1) := by ring
        _ ≤ rn * cn := Nat.mul_le_mul_left _ hj
    · rw [Nat.add_mul_mod_self_left, Nat.mod_eq_of_lt hi]
    · rw [Nat.add_mul_div_left _ _ (by omega), Nat.div_eq_of_lt hi, Nat.zero_add]

/-- Row by row. -/
theorem order_row (rn cn : Nat) : Order rn cn (fun k => k / cn) (fun k => k % cn) where
  row_lt k h := (order_col cn rn).col_lt k (by rw [Nat.mul_comm]; exact h)
  col_lt k h := (order_col cn rn).row_lt k (by rw [Nat.mul_comm]; exact h)
  once k l h1 h2 h3 h4 := (order_col cn rn).once k l (by rw [Nat.mul_comm]; exact h1)
    (by rw [Nat.mul_comm]; exact h2) h4 h3
  all i j hi hj := by
    obtain ⟨k, h1, h2, h3⟩ := (order_col cn rn).all j i hj hi
    exact ⟨k, by rw [Nat.mul_comm]; exact h1, h3, h2⟩

theorem m_apply (f : K → K → K) {a b : MView} {m : List K} (ha : MProper m a) (hb : MProper m b)
    (hrn : a.r.rn = b.r.rn) (hcn : a.r.cn = b.r.cn) (hab : MApart a b) {ia ib row col : Nat → Nat}
    (ho : Order a.r.rn a.r.cn row col)
    (hia : ∀ k, k < a.r.rn * a.r.cn → ia k = elemM a (row k) (col k))
    (hib : ∀ k, k < a.r.rn * a.r.cn → ib k = elemM b (row k) (col k)) :
    ∃ m', applyLoop f ia ib 0 a.r.size m = .ok m' ∧
      MDone a (fun i j => f (val m (elemM a i j)) (val m (elemM b i j))) m m' := by
  have hsz : a.r.size = a.r.rn * a.r.cn := rfl
  obtain ⟨m', e, l, hv, hr⟩ := applyLoop_spec f ia ib a.r.size 0 m
    (fun i _ h => by
      rw [hia i (by omega), hib i (by omega)]
      have h1 := ho.row_lt i (by omega)
      have h2 := ho.col_lt i (by omega)
      exact ⟨ha.inside _ _ h1 h2, hb.inside _ _ (by omega) (by omega)⟩)
    (fun i j _ h h2 => by
      rw [hia i (by omega), hia j (by omega), hib j (by omega)]
      have h3 := ho.row_lt i (by omega)
      have h4 := ho.col_lt i (by omega)
      have h5 := ho.row_lt j (by omega)
      have h6 := ho.col_lt j (by omega)
      constructor
      · intro e
        obtain ⟨e1, e2⟩ := ha.inj _ _ _ _ h3 h4 h5 h6 e
        have := ho.once i j (by omega) (by omega) e1 e2
        omega
      · intro e
        obtain ⟨e1, e2⟩ := hab _ _ _ _ h3 h4 (by omega) (by omega) e
        have := ho.once i j (by omega) (by omega) e1 e2
        omega)
  refine ⟨m', e, l, fun i j hi hj => ?_, fun p hp => hr p fun k _ h => ?_⟩
  · obtain ⟨k, h1, h2, h3⟩ := ho.all i j hi hj
    have := hv k (Nat.zero_le k) (by omega)
    rwa [hia k h1, hib k h1, h2, h3] at this
  · rw [hia k (by omega)]
    exact hp _ _ (ho.row_lt k (by omega)) (ho.col_lt k (by omega))

theorem m_map (f : K → K) {a : MView} {m : List K} (ha : MProper m a) {ia row col : Nat → Nat}
    (ho : Order a.r.rn a.r.cn row col)
    (hia : ∀ k, k < a.r.rn * a.r.cn → ia k = elemM a (row k) (col k)) :
    ∃ m', mapLoop f ia 0 a.r.size m = .ok m' ∧
      MDone a (fun i j => f (val m (elemM a i j))) m m' := by
  have hsz : a.r.size = a.r.rn * a.r.cn := rfl
  obtain ⟨m', e, l, hv, hr⟩ := mapLoop_spec f ia a.r.size 0 m
    (fun i _ h => by
      rw [hia i (by omega)]
      exact ha.inside _ _ (ho.row_lt i (by omega)) (ho.col_lt i (by omega)))
    (fun i j _ h h2 => by
      rw [hia i (by omega), hia j (by omega)]
      intro e
      obtain ⟨e1, e2⟩ := ha.inj _ _ _ _ (ho.row_lt i (by omega)) (ho.col_lt i (by omega))
        (ho.row_lt j (by omega)) (ho.col_lt j (by omega)) e
      have := ho.once i j (by omega) (by omega) e1 e2
      omega)
  refine ⟨m', e, l, fun i j hi hj => ?_, fun p hp => hr p fun k _ h => ?_⟩
  · obtain ⟨k, h1, h2, h3⟩ := ho.all i j hi hj
    have := hv k (Nat.zero_le k) (by omega)
    rwa [hia k h1, h2, h3] at this
  · rw [hia k (by omega)]
    exact hp _ _ (ho.row_lt k (by omega)) (ho.col_lt k (by omega))

theorem mIter_lt (v : MView) (k : Nat) (h : k < v.r.rn * v.r.cn) :
    mIter v k = elemM v (k % v.r.rn) (k / v.r.rn) :=
  mIter_eq v (Nat.pos_of_ne_zero (by intro e; rw [e, Nat.zero_mul] at h; omega)) k

/-- A contiguous view has its elements next to each other, column by column or row by row. -/
theorem contiguous_order {r : MatRange} (h : r.isContiguous = true) :
    ∃ row col, Order r.rn r.cn row col ∧
      ∀ (v : MView), v.r = r → ∀ k, ptr v.off k = elemM v (row k) (col k) := by
  unfold MatRange.isContiguous at h
  rw [Bool.or_eq_true] at h
  rcases h with h | h
  · unfold MatRange.isNormal at h
    simp only [Bool.and_eq_true, beq_iff_eq] at h
    refine ⟨_, _, order_col r.rn r.cn, fun v hv k => ?_⟩
    subst hv
    unfold ptr elemM
    rw [h.1, h.2]
    have := Nat.div_add_mod k v.r.rn
    rw [Nat.mul_one, Nat.mul_comm (k / v.r.rn)]
    omega
  · unfold MatRange.isTransposed at h
    simp only [Bool.and_eq_true, beq_iff_eq] at h
    refine ⟨_, _, order_row r.rn r.cn, fun v hv k => ?_⟩
    subst hv
    unfold ptr elemM
    rw [h.1, h.2]
    have := Nat.div_add_mod k v.r.cn
    rw [Nat.mul_one, Nat.mul_comm (k / v.r.cn)]
    omega

/-- Both branches of the matrix operations. -/
theorem m_both (f : K → K → K) {a b : MView} {m : List K} (ha : MProper m a) (hb : MProper m b)
    (hrn : a.r.rn = b.r.rn) (hcn : a.r.cn = b.r.cn) (hab : MApart a b) :
    (a.r = b.r → b.r.isContiguous = true →
      ∃ m', applyLoop f (ptr a.off) (ptr b.off) 0 a.r.size m = .ok m' ∧
        MDone a (fun i j => f (val m (elemM a i j)) (val m (elemM b i j))) m m') ∧
    (∃ m', applyM f a (mIter b) m = .ok m' ∧
        MDone a (fun i j => f (val m (elemM a i j)) (val m (elemM b i j))) m m') := by
  constructor
  · intro e c
    obtain ⟨row, col, ho, hp⟩ := contiguous_order c
    exact m_apply f ha hb hrn hcn hab (by rw [e]; exact ho) (fun k _ => hp a e k)
      (fun k _ => hp b rfl k)
  · exact m_apply f ha hb hrn hcn hab (order_col _ _) (fun k h => mIter_lt a k h)
      (fun k h => by
        have := mIter_lt b k (by rw [← hrn, ← hcn]; exact h)
        rw [this, hrn])

end

end Verif.Views
