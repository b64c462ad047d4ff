import Verif.Tensor.ViewsC89
import Mathlib.Data.Rat.Defs
import Mathlib.Algebra.Field.Rat
import Mathlib.Algebra.Star.Basic
import Mathlib.Data.Complex.Basic

/-!
# C89: arithmetic on vector and matrix views changes exactly the elements viewed
-/

namespace Verif.Views

open Verif.Tensor (MatRange)

/-! ### Which elements a view shows -/

/-- The views that can be made of a `rn` by `cn` matrix stored at `p`. -/
inductive FromMat (p rn cn : Nat) : MView → Prop
  | all : FromMat p rn cn (mat p rn cn)
  | transpose {v} : FromMat p rn cn v → FromMat p rn cn v.transpose
  | sub {v} (r0 r1 c0 c1 : Nat) : FromMat p rn cn v → r0 < r1 → r1 ≤ v.r.rn → c0 < c1 →
      c1 ≤ v.r.cn → FromMat p rn cn (subMatrix v r0 r1 c0 c1)

/-- Every view is a rectangle of the matrix, perhaps transposed. -/
theorem fromMat_rect {p rn cn : Nat} {v : MView} (h : FromMat p rn cn v) :
    ∃ a b, v.off = p + (a + rn * b) ∧
      ((v.r.rs = 1 ∧ v.r.cs = rn ∧ a + v.r.rn ≤ rn ∧ b + v.r.cn ≤ cn) ∨
        (v.r.rs = rn ∧ v.r.cs = 1 ∧ a + v.r.cn ≤ rn ∧ b + v.r.rn ≤ cn)) := by
  induction h with
  | all => exact ⟨0, 0, by simp [mat], Or.inl ⟨rfl, rfl, by simp [mat, MatRange.mk2],
      by simp [mat, MatRange.mk2]⟩⟩
  | transpose _ ih =>
    obtain ⟨a, b, ho, h | h⟩ := ih
    · exact ⟨a, b, ho, Or.inr ⟨h.2.1, h.1, h.2.2.1, h.2.2.2⟩⟩
    · exact ⟨a, b, ho, Or.inl ⟨h.2.1, h.1, h.2.2.1, h.2.2.2⟩⟩
  | @sub v r0 r1 c0 c1 _ h1 h2 h3 h4 ih =>
    obtain ⟨a, b, ho, h | h⟩ := ih
    · refine ⟨a + r0, b + c0, ?_, Or.inl ⟨h.1, h.2.1, ?_, ?_⟩⟩
      · simp only [subMatrix]; rw [ho, h.1, h.2.1]; ring
      · simp only [subMatrix]; omega
      · simp only [subMatrix]; omega
    · refine ⟨a + c0, b + r0, ?_, Or.inr ⟨h.1, h.2.1, ?_, ?_⟩⟩
      · simp only [subMatrix]; rw [ho, h.1, h.2.1]; ring
      · simp only [subMatrix]; omega
      · simp only [subMatrix]; omega

theorem grid_lt {rn cn x y : Nat} (hx : x < rn) (hy : y < cn) : x + rn * y < rn * cn := by
  calc x + rn * y < rn + rn * y := by omega
    _ = rn * (y + 1) := by ring
    _ ≤ rn * cn := Nat.mul_le_mul_left _ hy

theorem grid_inj {rn x y x' y' : Nat} (hx : x < rn) (hx' : x' < rn)
    (h : x + rn * y = x' + rn * y') : x = x' ∧ y = y' := by
  have h1 : (x + rn * y) % rn = (x' + rn * y') % rn := by rw [h]
  rw [Nat.add_mul_mod_self_left, Nat.add_mul_mod_self_left, Nat.mod_eq_of_lt hx,
    Nat.mod_eq_of_lt hx'] at h1
  subst h1
  exact ⟨rfl, Nat.eq_of_mul_eq_mul_left (by omega) (by omega : rn * y = rn * y')⟩

section
variable {K : Type*} [Field K] [DecidableEq K]

/-- **C89 (views are proper).** Every view made of a matrix by `transpose`, `subMatrix`, `rows` and
`columns`, in any order, shows elements of that matrix only, each at most once; the same holds of
the rows, columns and the diagonal of such a view. -/
theorem C89_views {p rn cn : Nat} {m : List K} (hm : p + rn * cn ≤ m.length) {v : MView}
    (h : FromMat p rn cn v) :
    MProper m v ∧
    (∀ i j, i < v.r.rn → j < v.r.cn →
      ∃ x y, x < rn ∧ y < cn ∧ elemM v i j = p + (x + rn * y)) ∧
    (∀ j, j < v.r.rn → VProper m (row v j)) ∧ (∀ j, j < v.r.cn → VProper m (column v j)) ∧
    VProper m (diagonal v) := by
  obtain ⟨a, b, ho, hr⟩ := fromMat_rect h
  have hel : ∀ i j, i < v.r.rn → j < v.r.cn →
      ∃ x y, x < rn ∧ y < cn ∧ elemM v i j = p + (x + rn * y) := by
    intro i j hi hj
    rcases hr with hr | hr
    · exact ⟨a + i, b + j, by omega, by omega, by unfold elemM; rw [ho, hr.1, hr.2.1]; ring⟩
    · exact ⟨a + j, b + i, by omega, by omega, by unfold elemM; rw [ho, hr.1, hr.2.1]; ring⟩
  have hin : ∀ i j, i < v.r.rn → j < v.r.cn → elemM v i j < m.length := by
    intro i j hi hj
    obtain ⟨x, y, hx, hy, e⟩ := hel i j hi hj
    have := grid_lt hx hy
    omega
  refine ⟨⟨hin, ?_⟩, hel, ?_, ?_, ?_⟩
  · intro i j i' j' hi hj hi' hj' e
    unfold elemM at e
    rcases hr with hr | hr
    · rw [hr.1, hr.2.1, ho] at e
      have := grid_inj (rn := rn) (x := a + i) (y := b + j) (x' := a + i') (y' := b + j')
        (by omega) (by omega)
        (by rw [Nat.mul_add, Nat.mul_add, Nat.mul_comm rn j, Nat.mul_comm rn j']; omega)
      omega
    · rw [hr.1, hr.2.1, ho] at e
      have := grid_inj (rn := rn) (x := a + j) (y := b + i) (x' := a + j') (y' := b + i')
        (by omega) (by omega)
        (by rw [Nat.mul_add, Nat.mul_add, Nat.mul_comm rn i, Nat.mul_comm rn i']; omega)
      omega
  · intro j hj
    refine ⟨fun i hi => ?_, ?_⟩
    · have := hin j i hj hi
      simp only [elemV, row, elemM] at *
      rw [Nat.mul_comm v.r.cs i]; omega
    · simp only [row]
      rcases hr with hr | hr
      · omega
      · omega
  · intro j hj
    refine ⟨fun i hi => ?_, ?_⟩
    · have := hin i j hi hj
      simp only [elemV, column, elemM] at *
      rw [Nat.mul_comm v.r.rs i]; omega
    · simp only [column]
      rcases hr with hr | hr
      · omega
      · omega
  · refine ⟨fun i hi => ?_, ?_⟩
    · simp only [diagonal] at hi
      have := hin i i (by omega) (by omega)
      simp only [elemV, diagonal, elemM] at *
      rw [Nat.add_mul, Nat.mul_comm v.r.rs i, Nat.mul_comm v.r.cs i]; omega
    · simp only [diagonal]
      rcases hr with hr | hr
      · omega
      · omega

/-- **C89 (which elements).** Element `(i,j)` of the transpose is `(j,i)`; of `subMatrix` it is the
element moved by the start of the rows and columns; row, column and diagonal show what they say. -/
theorem C89_elements (M : MView) (i j r0 r1 c0 c1 : Nat) :
    elemM M.transpose i j = elemM M j i ∧
    elemM (subMatrix M r0 r1 c0 c1) i j = elemM M (r0 + i) (c0 + j) ∧
    elemM (rows M r0 r1) i j = elemM M (r0 + i) j ∧
    elemM (columns M c0 c1) i j = elemM M i (c0 + j) ∧
    elemV (row M i) j = elemM M i j ∧ elemV (column M j) i = elemM M i j ∧
    elemV (diagonal M) i = elemM M i i := by
  refine ⟨?_, ?_, ?_, ?_, ?_, ?_, ?_⟩
  · simp only [elemM, MView.transpose, MatRange.transpose]; omega
  · simp only [elemM, subMatrix]; ring
  · simp only [elemM, rows, subMatrix]; ring
  · simp only [elemM, columns, subMatrix]; ring
  · simp only [elemM, elemV, row]; ring
  · simp only [elemM, elemV, column]; ring
  · simp only [elemM, elemV, diagonal]; ring

/-! ### In-place arithmetic -/

/-- **C89 (vectors).** For views of the same size whose elements lie in the memory and which share
elements only at equal positions, `a &= b`, `a += b` and `a -= b` do to every element of `a` what
they say, with the values both views had before, and touch nothing else — whatever the strides. -/
theorem C89_vector_partial {a b : VView} {m : List K} (ha : VProper m a) (hb : VProper m b)
    (hs : a.r.ext = b.r.ext) (hab : VApart a b) :
    (∃ m', vAssign a b m = .ok m' ∧ VDone a (fun i => val m (elemV b i)) m m') ∧
    (∃ m', vAdd a b m = .ok m' ∧
      VDone a (fun i => val m (elemV a i) + val m (elemV b i)) m m') ∧
    (∃ m', vSub a b m = .ok m' ∧
      VDone a (fun i => val m (elemV a i) - val m (elemV b i)) m m') := by
  refine ⟨?_, ?_, ?_⟩
  · unfold vAssign applyV
    rw [vCount_eq ha.pos]
    split
    · rename_i e
      exact v_apply (fun _ y => y) ha hb hs hab (vIter_eq a) (ptr_eq e)
    · exact v_apply (fun _ y => y) ha hb hs hab (vIter_eq a) (vIter_eq b)
  · unfold vAdd applyV daxpy
    rw [vCount_eq ha.pos]
    split
    · rename_i e
      split
      · rename_i e'
        simp only [one_mul]
        exact v_apply (fun x y => x + y) ha hb hs hab (ptr_eq e') (ptr_eq e)
      · exact v_apply (fun x y => x + y) ha hb hs hab (vIter_eq a) (ptr_eq e)
    · exact v_apply (fun x y => x + y) ha hb hs hab (vIter_eq a) (vIter_eq b)
  · unfold vSub applyV daxpy
    rw [vCount_eq ha.pos]
    split
    · rename_i e
      split
      · rename_i e'
        simp only [neg_mul, one_mul, ← sub_eq_add_neg]
        exact v_apply (fun x y => x - y) ha hb hs hab (ptr_eq e') (ptr_eq e)
      · exact v_apply (fun x y => x - y) ha hb hs hab (vIter_eq a) (ptr_eq e)
    · exact v_apply (fun x y => x - y) ha hb hs hab (vIter_eq a) (vIter_eq b)

/-- **C89 (matrices).** The same for matrix views of equal shape: normal, transposed, or pieces of a
larger matrix. -/
theorem C89_matrix_partial {a b : MView} {m : List K} (ha : MProper m a) (hb : MProper m b)
    (hrn : a.r.rn = b.r.rn) (hcn : a.r.cn = b.r.cn) (hab : MApart a b) :
    (∃ m', mAssign a b m = .ok m' ∧ MDone a (fun i j => val m (elemM b i j)) m m') ∧
    (∃ m', mAdd a b m = .ok m' ∧
      MDone a (fun i j => val m (elemM a i j) + val m (elemM b i j)) m m') ∧
    (∃ m', mSub a b m = .ok m' ∧
      MDone a (fun i j => val m (elemM a i j) - val m (elemM b i j)) m m') := by
  refine ⟨?_, ?_, ?_⟩
  · unfold mAssign
    split
    · rename_i e
      exact (m_both (fun _ y => y) ha hb hrn hcn hab).1 e.1 e.2
    · exact (m_both (fun _ y => y) ha hb hrn hcn hab).2
  · unfold mAdd daxpy
    split
    · rename_i e
      simp only [one_mul]
      exact (m_both (fun x y => x + y) ha hb hrn hcn hab).1 e.1.symm e.2
    · exact (m_both (fun x y => x + y) ha hb hrn hcn hab).2
  · unfold mSub daxpy
    split
    · rename_i e
      simp only [neg_mul, one_mul, ← sub_eq_add_neg]
      exact (m_both (fun x y => x - y) ha hb hrn hcn hab).1 e.1.symm e.2
    · exact (m_both (fun x y => x - y) ha hb hrn hcn hab).2

/-- **C89 (scaling).** Multiplying and dividing a view by a number changes every element viewed and
no other. Dividing a vector by zero throws and changes nothing. -/
theorem C89_scale {m : List K} (fac : K) :
    (∀ a : VView, VProper m a →
      (∃ m', vScale a fac m = .ok m' ∧ VDone a (fun i => val m (elemV a i) * fac) m m') ∧
      (fac ≠ 0 →
        ∃ m', vDiv a fac m = .ok m' ∧ VDone a (fun i => val m (elemV a i) / fac) m m') ∧
      (fac = 0 → vDiv a fac m = .throw)) ∧
    (∀ a : MView, MProper m a →
      (∃ m', mScale a fac m = .ok m' ∧ MDone a (fun i j => val m (elemM a i j) * fac) m m') ∧
      (∃ m', mScaleC a fac m = .ok m' ∧ MDone a (fun i j => val m (elemM a i j) * fac) m m') ∧
      (fac ≠ 0 →
        ∃ m', mDiv a fac m = .ok m' ∧ MDone a (fun i j => val m (elemM a i j) / fac) m m')) := by
  constructor
  · intro a ha
    refine ⟨?_, ?_, ?_⟩
    · unfold vScale dscal
      rw [vCount_eq ha.pos]
      split
      · rename_i e
        simpa [mul_comm] using v_map (fun u => fac * u) ha (ptr_eq e)
      · exact v_map (fun u => u * fac) ha (vIter_eq a)
    · intro h
      unfold vDiv
      rw [if_neg h, vCount_eq ha.pos]
      split
      · rename_i e
        exact v_map (fun u => u / fac) ha (ptr_eq e)
      · exact v_map (fun u => u / fac) ha (vIter_eq a)
    · intro h
      unfold vDiv
      rw [if_pos h]
  · intro a ha
    have hc := m_map (fun u => u * fac) ha (order_col _ _) (fun k h => mIter_lt a k h)
    refine ⟨?_, hc, ?_⟩
    · unfold mScale dscal
      split
      · rename_i e
        obtain ⟨r, c, ho, hp⟩ := contiguous_order e
        simpa [mul_comm] using m_map (fun u => fac * u) ha ho (fun k _ => hp a rfl k)
      · exact hc
    · intro _
      unfold mDiv
      split
      · rename_i e
        obtain ⟨r, c, ho, hp⟩ := contiguous_order e
        exact m_map (fun u => u / fac) ha ho (fun k _ => hp a rfl k)
      · exact m_map (fun u => u / fac) ha (order_col _ _) (fun k h => mIter_lt a k h)

/-- **C89 (copies).** `Matrix(ref)` gives a new matrix with the elements of `ref` and changes nothing
that was there. -/
theorem C89_copy {b : MView} {m : List K} (hb : MProper m b) :
    ∃ a m', mNew b m = .ok (a, m') ∧ a.r = MatRange.mk2 b.r.rn b.r.cn ∧
      (∀ i j, i < b.r.rn → j < b.r.cn →
        m.length ≤ elemM a i j ∧ val m' (elemM a i j) = val m (elemM b i j)) ∧
      (∀ p, p < m.length → val m' p = val m p) := by
  have hl : (m ++ List.replicate (mat m.length b.r.rn b.r.cn).r.size (0 : K)).length =
      m.length + b.r.rn * b.r.cn := by
    simp [mat, MatRange.size, MatRange.mk2]
  have hfrom := C89_views (m := m ++ List.replicate (mat m.length b.r.rn b.r.cn).r.size (0 : K))
    (p := m.length) (rn := b.r.rn) (cn := b.r.cn) (by rw [hl]) FromMat.all
  have hin : ∀ i j, i < b.r.rn → j < b.r.cn → m.length ≤ elemM (mat m.length b.r.rn b.r.cn) i j :=
    fun i j _ _ => by simp only [elemM, mat]; omega
  obtain ⟨⟨m', e, hd⟩, -, -⟩ := C89_matrix_partial hfrom.1
    (b := b) ⟨fun i j hi hj => by have := hb.inside i j hi hj; rw [hl]; omega, hb.inj⟩ rfl rfl
    (fun i j i' j' hi hj hi' hj' e => by
      have h1 := hin i j hi hj
      have h2 := hb.inside i' j' hi' hj'
      omega)
  refine ⟨mat m.length b.r.rn b.r.cn, m', by unfold mNew; dsimp only; rw [e]; rfl, rfl, ?_, ?_⟩
  · intro i j hi hj
    refine ⟨hin i j hi hj, ?_⟩
    rw [hd.new i j hi hj, val_append (hb.inside i j hi hj)]
  · intro p hp
    rw [hd.old p (fun i j hi hj => by have := hin i j hi hj; omega), val_append hp]

/-! ### Products -/

omit [DecidableEq K] in
theorem sumLoop_ok {f : Nat → Res K} {g : Nat → K} :
    ∀ n, (∀ j, j < n → f j = .ok (g j)) → sumLoop f n = .ok (∑ j ∈ Finset.range n, g j) := by
  intro n
  induction n with
  | zero => intro _; rfl
  | succ n ih =>
    intro h
    rw [sumLoop, ih (fun j hj => h j (by omega)), Res.bind_ok, h n (by omega), Res.bind_ok,
      Finset.sum_range_succ]

/-- **C89 (dot product).** `a*b` is `Σ conj(a_i) b_i`, whatever the strides. -/
theorem C89_dot (conj : K → K) {a b : VView} {m : List K}
    (ha : ∀ i, i < a.r.ext → elemV a i < m.length) (hb : ∀ i, i < b.r.ext → elemV b i < m.length)
    (hs : a.r.ext = b.r.ext) :
    dot conj a b m =
      .ok (∑ i ∈ Finset.range a.r.ext, conj (val m (elemV a i)) * val m (elemV b i)) := by
  unfold dot
  refine sumLoop_ok _ fun k hk => ?_
  have h1 := ha k hk
  have h2 := hb k (by omega)
  unfold elemV at h1 h2
  rw [read_ok h1, Res.bind_ok, read_ok h2, Res.bind_ok]
  rfl

theorem gemvLoop_spec {trans : Bool} {alpha beta : K} {m n A lda x incx y incy : Nat}
    {mem : List K} {s : Nat → K} (hi : 0 < incy) :
    ∀ (c k : Nat) (cur : List K),
      (∀ i, k ≤ i → i < k + c → gemvRow trans alpha m n A lda x incx mem i = .ok (s i)) →
      (∀ i, k ≤ i → i < k + c → y + incy * i < cur.length) →
      ∃ m', gemvLoop trans alpha beta m n A lda x incx y incy mem k c cur = .ok m' ∧
        m'.length = cur.length ∧
        (∀ i, k ≤ i → i < k + c → val m' (y + incy * i) = s i + beta * val cur (y + incy * i)) ∧
        (∀ p, (∀ i, k ≤ i → i < k + c → y + incy * i ≠ p) → val m' p = val cur p) := by
  intro c
  induction c with
  | zero =>
    intro k cur _ _
    exact ⟨cur, rfl, rfl, fun i h1 h2 => by omega, fun p _ => rfl⟩
  | succ c ih =>
    intro k cur hs hb
    have h1 := hb k (le_refl k) (by omega)
    have ht : (if beta = 0 then Res.ok (0 : K) else
        (read cur (y + incy * k)).bind fun v => .ok (beta * v)) =
        .ok (beta * val cur (y + incy * k)) := by
      split
      · rename_i e; rw [e, zero_mul]
      · rw [read_ok h1, Res.bind_ok]
    obtain ⟨m', e, l, hv, hr⟩ := ih (k + 1)
      (cur.set (y + incy * k) (s k + beta * val cur (y + incy * k)))
      (fun i a b => hs i (by omega) (by omega))
      (fun i a b => by rw [List.length_set]; exact hb i (by omega) (by omega))
    have hne : ∀ i, k < i → y + incy * k ≠ y + incy * i := by
      intro i h e
      have := Nat.eq_of_mul_eq_mul_left hi (by omega : incy * k = incy * i)
      omega
    refine ⟨m', ?_, by rw [l, List.length_set], ?_, ?_⟩
    · rw [gemvLoop, hs k (le_refl k) (by omega), Res.bind_ok, ht, Res.bind_ok, write, if_pos h1,
        Res.bind_ok, e]
    · intro i a b
      by_cases hik : i = k
      · subst hik
        rw [hr _ (fun j c d => (hne j (by omega)).symm), val_set h1, if_pos rfl]
      · rw [hv i (by omega) (by omega), val_set h1, if_neg (hne i (by omega))]
    · intro p hp
      rw [hr p (fun i a b => hp i (by omega) (by omega)), val_set h1,
        if_neg (hp k (le_refl k) (by omega))]

/-- Element `i` of the product `M x`, or of `x M` when `fromleft`. -/
def product (M : MView) (x : VView) (fromleft : Bool) (m : List K) (i : Nat) : K :=
  if fromleft then ∑ j ∈ Finset.range M.r.rn, val m (elemV x j) * val m (elemM M j i)
  else ∑ j ∈ Finset.range M.r.cn, val m (elemM M i j) * val m (elemV x j)

/-- What a product needs: a contiguous matrix with at least one element, a vector `x` of the right
size, a vector `y` of the right size whose elements belong to neither. -/
structure Fits (M : MView) (x y : VView) (fromleft : Bool) (m : List K) : Prop where
  mat : MProper m M
  vec : VProper m x
  out : VProper m y
  contiguous : M.r.isContiguous = true
  rows : 0 < M.r.rn
  cols : 0 < M.r.cn
  size_in : x.r.ext = if fromleft then M.r.rn else M.r.cn
  size_out : y.r.ext = if fromleft then M.r.cn else M.r.rn
  apart_mat : ∀ i j k, i < M.r.rn → j < M.r.cn → k < y.r.ext → elemM M i j ≠ elemV y k
  apart_vec : ∀ i k, i < x.r.ext → k < y.r.ext → elemV x i ≠ elemV y k

theorem row_ok {trans : Bool} {alpha : K} {m n A lda x incx : Nat} {mem : List K} {i : Nat}
    {g h : Nat → K}
    (h1 : ∀ j, j < (if trans then m else n) →
      read mem (A + (if trans then j + lda * i else i + lda * j)) = .ok (g j))
    (h2 : ∀ j, j < (if trans then m else n) → read mem (x + incx * j) = .ok (h j)) :
    gemvRow trans alpha m n A lda x incx mem i =
      .ok (alpha * ∑ j ∈ Finset.range (if trans then m else n), g j * h j) := by
  unfold gemvRow
  rw [sumLoop_ok (g := fun j => g j * h j) _ (fun j hj => by
    rw [h1 j hj, Res.bind_ok, h2 j hj, Res.bind_ok]), Res.bind_ok]

theorem callGemv_spec {M : MView} {x y : VView} {alpha beta : K} {fromleft : Bool} {m : List K}
    (h : Fits M x y fromleft m) :
    ∃ m', callGemv M x y alpha beta fromleft m = .ok m' ∧
      VDone y (fun i => alpha * product M x fromleft m i + beta * val m (elemV y i)) m m' := by
  have hx := h.vec.pos
  have hy := h.out.pos
  have hR := h.rows
  have hC := h.cols
  have hsi := h.size_in
  have hso := h.size_out
  have hxr : ∀ j, j < x.r.ext → read m (x.off + x.r.stride * j) = .ok (val m (elemV x j)) :=
    fun j hj => read_ok (h.vec.inside j hj)
  -- every element of the result
  have key : ∀ (trans : Bool) (mm nn : Nat),
      trans = (if M.r.isTransposed then !fromleft else fromleft) →
      mm = (if M.r.isTransposed then M.r.cn else M.r.rn) →
      nn = (if M.r.isTransposed then M.r.rn else M.r.cn) →
      (if trans then nn else mm) = y.r.ext ∧
      ∀ i, i < y.r.ext →
        gemvRow trans alpha mm nn M.off mm x.off x.r.stride m i =
          .ok (alpha * product M x fromleft m i) := by
    intro trans mm nn ht hm hn
    cases hT : M.r.isTransposed with
    | true =>
      rw [hT] at ht hm hn
      simp only [if_true] at ht hm hn
      have hT' := hT
      unfold MatRange.isTransposed at hT'
      simp only [Bool.and_eq_true, beq_iff_eq] at hT'
      cases fromleft with
      | true =>
        simp only [Bool.not_true] at ht
        subst ht hm hn
        simp only [if_true] at hsi hso
        refine ⟨by simp [hso], fun i hi => ?_⟩
        rw [row_ok (g := fun j => val m (elemM M j i)) (h := fun j => val m (elemV x j))]
        · simp [product, mul_comm]
        · intro j hj
          simp only [Bool.false_eq_true, if_false] at hj ⊢
          have e : M.off + (i + M.r.cn * j) = elemM M j i := by
            unfold elemM; rw [hT'.1, hT'.2]; ring
          rw [e]
          exact read_ok (h.mat.inside j i hj (by omega))
        · intro j hj
          simp only [Bool.false_eq_true, if_false] at hj
          exact hxr j (by omega)
      | false =>
        simp only [Bool.not_false] at ht
        subst ht hm hn
        simp only [Bool.false_eq_true, if_false] at hsi hso
        refine ⟨by simp [hso], fun i hi => ?_⟩
        rw [row_ok (g := fun j => val m (elemM M i j)) (h := fun j => val m (elemV x j))]
        · simp [product]
        · intro j hj
          simp only [if_true] at hj ⊢
          have e : M.off + (j + M.r.cn * i) = elemM M i j := by
            unfold elemM; rw [hT'.1, hT'.2]; ring
          rw [e]
          exact read_ok (h.mat.inside i j (by omega) hj)
        · intro j hj
          simp only [if_true] at hj
          exact hxr j (by omega)
    | false =>
      rw [hT] at ht hm hn
      simp only [Bool.false_eq_true, if_false] at ht hm hn
      have hN := h.contiguous
      unfold MatRange.isContiguous at hN
      rw [hT, Bool.or_false] at hN
      unfold MatRange.isNormal at hN
      simp only [Bool.and_eq_true, beq_iff_eq] at hN
      subst hm hn
      cases fromleft with
      | true =>
        subst ht
        simp only [if_true] at hsi hso
        refine ⟨by simp [hso], fun i hi => ?_⟩
        rw [row_ok (g := fun j => val m (elemM M j i)) (h := fun j => val m (elemV x j))]
        · simp [product, mul_comm]
        · intro j hj
          simp only [if_true] at hj ⊢
          have e : M.off + (j + M.r.rn * i) = elemM M j i := by
            unfold elemM; rw [hN.1, hN.2]; ring
          rw [e]
          exact read_ok (h.mat.inside j i hj (by omega))
        · intro j hj
          simp only [if_true] at hj
          exact hxr j (by omega)
      | false =>
        subst ht
        simp only [Bool.false_eq_true, if_false] at hsi hso
        refine ⟨by simp [hso], fun i hi => ?_⟩
        rw [row_ok (g := fun j => val m (elemM M i j)) (h := fun j => val m (elemV x j))]
        · simp [product]
        · intro j hj
          simp only [Bool.false_eq_true, if_false] at hj ⊢
          have e : M.off + (i + M.r.rn * j) = elemM M i j := by
            unfold elemM; rw [hN.1, hN.2]; ring
          rw [e]
          exact read_ok (h.mat.inside i j (by omega) hj)
        · intro j hj
          simp only [Bool.false_eq_true, if_false] at hj
          exact hxr j (by omega)
  obtain ⟨k1, k2⟩ := key _ _ _ rfl rfl rfl
  obtain ⟨m', e, l, hv, hr⟩ := gemvLoop_spec (beta := beta) (y := y.off) hy y.r.ext 0 m
    (fun i _ hi => k2 i (by omega)) (fun i _ hi => h.out.inside i (by omega))
  refine ⟨m', ?_, l, fun i hi => hv i (Nat.zero_le i) (by omega),
    fun p hp => hr p fun i _ hi => hp i (by omega)⟩
  unfold callGemv gemv
  dsimp only
  rw [if_neg (by split <;> omega), if_neg (by split <;> omega), k1, e]

/-- **C89 (matrix times vector).** For a contiguous matrix, normal or transposed, and vectors of any
stride, `mult`, `multAdd` and `multSub` set, add to and subtract from `y` the product, from either
side, and touch nothing else. Missing: matrices that are not contiguous and matrices without
elements, see the counterexamples. -/
theorem C89_gemv_partial {M : MView} {x y : VView} {fromleft : Bool} {m : List K}
    (h : Fits M x y fromleft m) :
    (∃ m', mult M x y fromleft m = .ok m' ∧ VDone y (product M x fromleft m) m m') ∧
    (∃ m', multAdd M x y fromleft m = .ok m' ∧
      VDone y (fun i => val m (elemV y i) + product M x fromleft m i) m m') ∧
    (∃ m', multSub M x y fromleft m = .ok m' ∧
      VDone y (fun i => val m (elemV y i) - product M x fromleft m i) m m') := by
  refine ⟨?_, ?_, ?_⟩
  · obtain ⟨m', e, d⟩ := callGemv_spec (alpha := 1) (beta := 0) h
    exact ⟨m', e, d.len, fun i hi => by rw [d.new i hi]; ring, d.old⟩
  · obtain ⟨m', e, d⟩ := callGemv_spec (alpha := 1) (beta := 1) h
    exact ⟨m', e, d.len, fun i hi => by rw [d.new i hi]; ring, d.old⟩
  · obtain ⟨m', e, d⟩ := callGemv_spec (alpha := -1) (beta := 1) h
    exact ⟨m', e, d.len, fun i hi => by rw [d.new i hi]; ring, d.old⟩

theorem new_spec {M : MView} {x : VView} {fromleft : Bool} {m : List K} {n : Nat}
    (hM : MProper m M) (hx : VProper m x) (hc : M.r.isContiguous = true) (hr : 0 < M.r.rn)
    (hcn : 0 < M.r.cn) (hin : x.r.ext = if fromleft then M.r.rn else M.r.cn)
    (hn : n = if fromleft then M.r.cn else M.r.rn) :
    ∃ m', mult M x (vec m.length n) fromleft (m ++ List.replicate n 0) = .ok m' ∧
      (∀ i, i < n → val m' (m.length + i) = product M x fromleft m i) ∧
      (∀ p, p < m.length → val m' p = val m p) := by
  have hl : (m ++ List.replicate n (0 : K)).length = m.length + n := by simp
  have he : ∀ i, elemV (vec m.length n) i = m.length + i := fun i => by simp [elemV, vec]
  obtain ⟨⟨m', e, d⟩, -, -⟩ := C89_gemv_partial (M := M) (x := x) (y := vec m.length n)
    (fromleft := fromleft) (m := m ++ List.replicate n (0 : K))
    ⟨⟨fun i j hi hj => by have := hM.inside i j hi hj; omega, hM.inj⟩,
      ⟨fun i hi => by have := hx.inside i hi; omega, hx.pos⟩,
      ⟨fun i hi => by
        have hi' : i < n := hi
        rw [he]; omega, Nat.one_pos⟩, hc, hr, hcn, hin, hn,
      fun i j k hi hj _ => by have := hM.inside i j hi hj; rw [he]; omega,
      fun i k hi _ => by have := hx.inside i hi; rw [he]; omega⟩
  refine ⟨m', e, fun i hi => ?_, fun p hp => ?_⟩
  · have := d.new i hi
    rw [he] at this
    rw [this]
    unfold product
    have h1 : i < if fromleft then M.r.cn else M.r.rn := by omega
    cases fromleft with
    | true =>
      simp only [if_true] at h1 hin ⊢
      refine Finset.sum_congr rfl fun j hj => ?_
      have hj' := Finset.mem_range.1 hj
      rw [val_append (hx.inside j (by omega)), val_append (hM.inside j i hj' h1)]
    | false =>
      simp only [Bool.false_eq_true, if_false] at h1 hin ⊢
      refine Finset.sum_congr rfl fun j hj => ?_
      have hj' := Finset.mem_range.1 hj
      rw [val_append (hx.inside j (by omega)), val_append (hM.inside i j h1 hj')]
  · rw [d.old p (fun i hi => by rw [he]; omega), val_append hp]

/-- **C89 (new vectors).** `M*x` and `x*M` give a new vector with the product and change nothing that
was there; `mult(M,x)` does when `M` is square. Missing for `mult(M,x,fromleft)`: everything else,
see the counterexamples. -/
theorem C89_new_partial {M : MView} {x : VView} {m : List K} (hM : MProper m M)
    (hx : VProper m x) (hc : M.r.isContiguous = true) (hr : 0 < M.r.rn) (hcn : 0 < M.r.cn) :
    (x.r.ext = M.r.cn → ∃ m', matVec M x m = .ok (vec m.length M.r.rn, m') ∧
      (∀ i, i < M.r.rn → val m' (m.length + i) =
        ∑ j ∈ Finset.range M.r.cn, val m (elemM M i j) * val m (elemV x j)) ∧
      (∀ p, p < m.length → val m' p = val m p)) ∧
    (x.r.ext = M.r.rn → ∃ m', vecMat x M m = .ok (vec m.length M.r.cn, m') ∧
      (∀ i, i < M.r.cn → val m' (m.length + i) =
        ∑ j ∈ Finset.range M.r.rn, val m (elemV x j) * val m (elemM M j i)) ∧
      (∀ p, p < m.length → val m' p = val m p)) ∧
    (x.r.ext = M.r.cn → M.r.rn = M.r.cn →
      ∃ m', multNew M x false m = .ok (vec m.length M.r.rn, m') ∧
      (∀ i, i < M.r.rn → val m' (m.length + i) =
        ∑ j ∈ Finset.range M.r.cn, val m (elemM M i j) * val m (elemV x j)) ∧
      (∀ p, p < m.length → val m' p = val m p)) := by
  refine ⟨?_, ?_, ?_⟩
  · intro h
    obtain ⟨m', e, h1, h2⟩ := new_spec (fromleft := false) hM hx hc hr hcn h rfl
    exact ⟨m', by unfold matVec; dsimp only; simp only [Bool.false_eq_true, if_false] at e; rw [e]; rfl,
      h1, h2⟩
  · intro h
    obtain ⟨m', e, h1, h2⟩ := new_spec (fromleft := true) hM hx hc hr hcn h rfl
    exact ⟨m', by unfold vecMat; dsimp only; simp only [if_true] at e; rw [e]; rfl, h1, h2⟩
  · intro h hsq
    obtain ⟨m', e, h1, h2⟩ := new_spec (fromleft := false) hM hx hc hr hcn h rfl
    refine ⟨m', ?_, h1, h2⟩
    unfold multNew
    dsimp only
    simp only [Bool.false_eq_true, if_false] at e
    rw [h, ← hsq, e]
    rfl

end

/-! ### What goes wrong -/

/-- **C89 (a piece of a matrix times a vector).** The upper left 2 by 2 piece of the 3 by 3 matrix
with columns (1,2,3), (4,5,6), (7,8,9) times (0,1) should be (4,5); without `DEBUG` the code
takes the elements as if the piece were stored without gaps and gives (3,4). -/
theorem C89_piece_counterexample :
    let m : List ℚ := [1, 2, 3, 4, 5, 6, 7, 8, 9, 0, 1]
    let M := subMatrix (mat 0 3 3) 0 2 0 2
    FromMat 0 3 3 M ∧ elemM M 0 1 = 3 ∧ val m 3 = 4 ∧ elemM M 1 1 = 4 ∧ val m 4 = 5 ∧
    matVec M (vec 9 2) m = .ok (vec 11 2, m ++ [3, 4]) := by
  refine ⟨FromMat.sub 0 2 0 2 FromMat.all (by decide) (by decide) (by decide) (by decide), ?_, ?_,
    ?_, ?_, ?_⟩ <;> decide +kernel

/-- **C89 (`mult(M,x)` of a tall matrix).** The result has the size of `x`, so that a 3 by 2 matrix
writes one element past the end of it. -/
theorem C89_tall_counterexample :
    let m : List ℚ := [1, 2, 3, 4, 5, 6, 1, 1]
    multNew (mat 0 3 2) (vec 6 2) false m = .ub ∧
      matVec (mat 0 3 2) (vec 6 2) m = .ok (vec 8 3, m ++ [5, 7, 9]) := by
  constructor <;> decide +kernel

/-- **C89 (`mult(M,x,fromleft)`).** `fromleft` is not passed on: for the matrix with rows (1,2) and
(0,1), `mult(M,x,true)` with `x=(1,0)` gives `M x = (1,0)`, not `x M = (1,2)`. -/
theorem C89_fromleft_counterexample :
    let m : List ℚ := [1, 0, 2, 1, 1, 0]
    multNew (mat 0 2 2) (vec 4 2) true m = .ok (vec 6 2, m ++ [1, 0]) ∧
      vecMat (vec 4 2) (mat 0 2 2) m = .ok (vec 6 2, m ++ [1, 2]) := by
  constructor <;> decide +kernel

/-- **C89 (`M = transpose(M)`).** The elements are copied one by one inside the same storage: of the
matrix with rows (1,2) and (3,4) the rows (1,2) and (2,4) are left. -/
theorem C89_self_counterexample :
    mReassign 0 (mat 0 2 2).transpose ([1, 3, 2, 4] : List ℚ) = .ok (mat 0 2 2, [1, 2, 2, 4]) := by
  decide +kernel

/-- **C89 (`subVector` of a row).** `subVector` forgets the stride: elements 1 and 2 of the first row
of a 2 by 3 matrix are at addresses 2 and 4, the view has 1 and 2. -/
theorem C89_subVector_counterexample :
    elemV (row (mat 0 2 3) 0) 1 = 2 ∧ elemV (row (mat 0 2 3) 0) 2 = 4 ∧
      elemV (subVector (row (mat 0 2 3) 0) 1 3) 0 = 1 ∧
      elemV (subVector (row (mat 0 2 3) 0) 1 3) 1 = 2 := by decide

/-- **C89 (`subVector` of a contiguous vector).** The elements from `start` up to, but without,
`stop`; the comment in the source says inclusive. -/
theorem C89_subVector {v : VView} (h : v.r.stride = 1) {start stop : Nat} :
    (subVector v start stop).r.ext = stop - start ∧
      ∀ i, elemV (subVector v start stop) i = elemV v (start + i) := by
  refine ⟨rfl, fun i => ?_⟩
  simp only [elemV, subVector, h]
  omega

/-- **C89 (`makeVecRefc` with a stride).** The version for constant data ignores the stride. -/
theorem C89_makeVecRefc_counterexample :
    elemV (makeVecRef 0 3 2) 2 = 4 ∧ elemV (makeVecRefc 0 3 2) 2 = 2 := by decide

/-- **C89 (no columns).** The product of a 2 by 0 matrix with the empty vector is (0,0); `mult` leaves
`y` as it was. -/
theorem C89_empty_counterexample :
    mult (mat 0 2 0) (vec 0 0) (vec 0 2) false ([7, 8] : List ℚ) = .ok [7, 8] := by decide +kernel

/-- **C89 (overlapping views).** Copying elements 0 and 1 of a vector to places 1 and 2 copies element
0 twice. -/
theorem C89_overlap_counterexample :
    vAssign (subVector (vec 0 3) 1 3) (subVector (vec 0 3) 0 2) ([1, 2, 3] : List ℚ) =
      .ok [1, 1, 1] := by decide +kernel

/-! ### The theorems apply -/

/-- A 2 by 3 matrix; adding the transpose of a 3 by 2 matrix to it. -/
example :
    mAdd (mat 0 2 3) (mat 6 3 2).transpose
      ([1, 2, 3, 4, 5, 6, 10, 20, 30, 40, 50, 60] : List ℚ) =
      .ok [11, 42, 23, 54, 35, 66, 10, 20, 30, 40, 50, 60] := by decide +kernel

example : let m : List ℚ := [1, 2, 3, 4, 5, 6, 10, 20, 30, 40, 50, 60]
    MProper m (mat 0 2 3) ∧ MProper m (mat 6 3 2).transpose ∧
      MApart (mat 0 2 3) (mat 6 3 2).transpose := by
  refine ⟨(C89_views (by decide) FromMat.all).1,
    (C89_views (by decide) (FromMat.transpose FromMat.all)).1, ?_⟩
  intro i j i' j' hi hj hi' hj' e
  simp only [mat, MatRange.mk2, MView.transpose, MatRange.transpose, elemM] at *
  omega

/-- A column of a transposed piece of a matrix, scaled. -/
example : vScale (column (subMatrix (mat 0 3 3) 1 3 0 2).transpose 1) (10 : ℚ)
    [1, 2, 3, 4, 5, 6, 7, 8, 9] = .ok [1, 2, 30, 4, 5, 60, 7, 8, 9] := by decide +kernel

example : VProper ([1, 2, 3, 4, 5, 6, 7, 8, 9] : List ℚ)
    (column (subMatrix (mat 0 3 3) 1 3 0 2).transpose 1) :=
  (C89_views (p := 0) (rn := 3) (cn := 3) (by decide) (FromMat.transpose
    (FromMat.sub 1 3 0 2 FromMat.all (by decide) (by decide) (by decide) (by decide)))).2.2.2.1 1
    (by decide)

/-- The transpose of a 2 by 3 matrix times a row of a 2 by 2 matrix, added to a column. -/
example : Fits (mat 0 2 3).transpose (row (mat 6 2 2) 1) (column (mat 10 3 2) 0) false
    ([1, 2, 3, 4, 5, 6, 0, 1, 0, 2, 0, 0, 0, 0, 0, 0] : List ℚ) where
  mat := (C89_views (by decide) (FromMat.transpose FromMat.all)).1
  vec := (C89_views (p := 6) (rn := 2) (cn := 2) (by decide) FromMat.all).2.2.1 1 (by decide)
  out := (C89_views (p := 10) (rn := 3) (cn := 2) (by decide) FromMat.all).2.2.2.1 0 (by decide)
  contiguous := by decide
  rows := by decide
  cols := by decide
  size_in := by decide
  size_out := by decide
  apart_mat i j k hi hj hk := by
    simp only [mat, MatRange.mk2, MView.transpose, MatRange.transpose, elemM, elemV, column] at *
    omega
  apart_vec i k hi hk := by
    simp only [mat, MatRange.mk2, elemV, column, row] at *
    omega

example : multAdd (mat 0 2 3).transpose (row (mat 6 2 2) 1) (column (mat 10 3 2) 0) false
    ([1, 2, 3, 4, 5, 6, 0, 1, 0, 2, 0, 0, 100, 0, 0, 0] : List ℚ) =
    .ok [1, 2, 3, 4, 5, 6, 0, 1, 0, 2, 5, 11, 117, 0, 0, 0] := by decide +kernel

/-- The first row of a matrix with its second row. -/
example : dot id (row (mat 0 2 3) 0) (row (mat 0 2 3) 1) ([1, 2, 3, 4, 5, 6] : List ℚ) =
    .ok 44 := by decide +kernel

end Verif.Views
