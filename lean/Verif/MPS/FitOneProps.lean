import Verif.MPS.FitOne
import Verif.MPS.FitApplyC85

/-! # The distance from the product, by the tensor at a site -/

noncomputable section

namespace Verif.FitOne

open Finset Verif.Limits Verif.DmrgNum Verif.FitApply

variable {𝕜 : Type*} [RCLike 𝕜]

/-- The tensors with the one at site `s` replaced. -/
def put1 (t : Int → Site 𝕜) (s : Int) (A : Site 𝕜) : Int → Site 𝕜 := Function.update t s A

/-- The tensor can stand at site `s` between its neighbours. -/
structure Fit1 (N : Nat) (t : Int → Site 𝕜) (s : Int) (A : Site 𝕜) : Prop where
  l : A.l = dimL t s
  d : A.d = (t s).d
  r : A.r = dimR N t s

/-- Its elements. -/
def bl1 (l d r : Nat) (A : Site 𝕜) : Block1 𝕜 l d r := WithLp.toLp 2 fun i => A.A i.1 i.2.1 i.2.2

theorem put1_self (t : Int → Site 𝕜) (s : Int) (A : Site 𝕜) : put1 t s A s = A := by simp [put1]

theorem put1_ne (t : Int → Site 𝕜) {s i : Int} (A : Site 𝕜) (h : i ≠ s) : put1 t s A i = t i := by simp [put1, h]

theorem put1_put1 (t : Int → Site 𝕜) (s : Int) (A B : Site 𝕜) : put1 (put1 t s A) s B = put1 t s B := by simp [put1]

theorem sum_pl1 {l d r : Nat} (f : Pl1 l d r → 𝕜) : ∑ i, f i = ∑ a, ∑ s, ∑ c, f (a, s, c) := by
  rw [Fintype.sum_prod_type]
  exact sum_congr rfl fun _ _ => Fintype.sum_prod_type _

theorem bl1_toSite {l d r : Nat} (y : Block1 𝕜 l d r) : bl1 l d r (toSite y) = y := by
  ext ⟨a, s, c⟩
  simp [bl1, toSite]

theorem chain_dims {N : Nat} {dd : Int → Nat} {t : Int → Site 𝕜} (c : Chain N dd t) {s : Int} (h1 : 1 ≤ s) (h2 : s ≤ N) : dimL t s = (t s).l ∧ dimR N t s = (t s).r := by
  unfold dimL dimR
  constructor
  · split
    · obtain rfl : s = 1 := by omega
      exact c.first.symm
    · rw [c.link (s - 1) (by omega) (by omega), show s - 1 + 1 = s by ring]
  · split
    · obtain rfl : s = N := by omega
      exact c.last.symm
    · rw [c.link s h1 (by omega)]

theorem dims_put1 (N : Nat) (t : Int → Site 𝕜) (s : Int) (A : Site 𝕜) : dimL (put1 t s A) s = dimL t s ∧ dimR N (put1 t s A) s = dimR N t s := by
  unfold dimL dimR
  rw [put1_ne _ _ (by omega), put1_ne _ _ (by omega)]
  exact ⟨rfl, rfl⟩

theorem chain_put1 {N : Nat} {dd : Int → Nat} {t : Int → Site 𝕜} {s : Int} {A₀ A : Site 𝕜} (c : Chain N dd (put1 t s A₀)) (h1 : 1 ≤ s) (h2 : s ≤ N) (f : Fit1 N t s A)
    (hd : (t s).d = dd s) : Chain N dd (put1 t s A) := by
  obtain ⟨e1, e2⟩ := chain_dims c h1 h2
  obtain ⟨e3, e4⟩ := dims_put1 N t s A₀
  have fl : A.l = A₀.l := by rw [f.l, ← e3, e1, put1_self]
  have fr : A.r = A₀.r := by rw [f.r, ← e4, e2, put1_self]
  have key : ∀ i, (put1 t s A i).l = (put1 t s A₀ i).l ∧ (put1 t s A i).r = (put1 t s A₀ i).r := by
    intro i
    by_cases h : i = s
    · subst h; rw [put1_self, put1_self]; exact ⟨fl, fr⟩
    · rw [put1_ne _ _ h, put1_ne _ _ h]; exact ⟨rfl, rfl⟩
  refine ⟨(key 1).1.trans c.first, (key N).2.trans c.last, fun i i1 i2 => ?_, fun i i1 i2 => (key i).2.trans ((c.link i i1 i2).trans (key (i + 1)).1.symm)⟩
  by_cases h : i = s
  · subst h; rw [put1_self, f.d, hd]
  · rw [put1_ne _ _ h, ← c.site i i1 i2, put1_ne _ _ h]

/-- What the new tensor is made from. -/
def wf1 (M : Mpo 𝕜) (N : Nat) (fac : ℝ) (t x : Int → Site 𝕜) (n j l d r : Nat) : Block1 𝕜 l d r :=
  projL fac (M.k (n + 1)) (x (n + 1)).r (lwf (M.k n) (M.W (n + 1)) (x (n + 1)) (lv M t x n)) (rv M N t x j) l d r

theorem proj_eq (fac : ℝ) (k k' : Nat) (W : Nat → Nat → Nat → Nat → 𝕜) (A : Site 𝕜) (L R : EV 𝕜) (l d r : Nat) :
    projR fac k A.l (rwf k' W A R) L l d r = projL fac k' A.r (lwf k W A L) R l d r := by
  ext ⟨a', s', c'⟩
  simp only [projR, projL, rwf, lwf]
  congr 1
  simp only [sum_mul]
  refine (sum_congr rfl fun w _ => ?_ : _ = ∑ w ∈ range k, ∑ w' ∈ range k', ∑ c ∈ range A.r, ∑ s ∈ range A.d, ∑ a ∈ range A.l,
    L a' w a * A.A a s c * W w s' s w' * R c' w' c).trans ?_
  · rw [sum_comm]
    refine sum_congr rfl fun w' _ => ?_
    simp only [sum_comm (s := range A.l)]
    rw [sum_comm (s := range A.r)]
    refine sum_congr rfl fun s _ => sum_congr rfl fun c _ => sum_congr rfl fun a _ => by ring
  · rw [sum_comm]
    refine sum_congr rfl fun w' _ => ?_
    rw [sum_comm]

/-- The overlap of the product with the state in which the tensor is replaced. -/
theorem overlap1 {M : Mpo 𝕜} {N : Nat} {dd : Int → Nat} {t x : Int → Site 𝕜} {A : Site 𝕜} {n j : Nat} (c : Chain N dd (put1 t (n + 1) A)) (cx : Chain N dd x)
    (hk : M.k N = 1) (h : n + 1 + j = N) (fac : ℝ) :
    (fac : 𝕜) * lv M (put1 t (n + 1) A) x N 0 0 0 = inner 𝕜 (bl1 A.l A.d A.r A) (wf1 M N fac t x n j A.l A.d A.r) := by
  rw [← pairing M c cx hk (n := n + 1) (j := j) (by omega) (by omega)]
  have el : lv M (put1 t (n + 1) A) x n = lv M t x n := lv_congr M fun i h1 h2 => ⟨put1_ne _ _ (by omega), rfl⟩
  have er : rv M N (put1 t (n + 1) A) x j = rv M N t x j := rv_congr M fun i h1 h2 => ⟨put1_ne _ _ (by omega), rfl⟩
  rw [er, lv, el]
  push_cast
  rw [put1_self, PiLp.inner_apply, sum_tri]
  simp only [absL_conj, RCLike.inner_apply, bl1, wf1, projL]
  generalize lwf (M.k n) (M.W (n + 1)) (x (n + 1)) (lv M t x n) = f
  generalize rv M N t x j = g
  rw [sum_pl1]
  simp only [mul_sum, sum_mul]
  refine (pull fun _ _ => pull fun _ _ => pull fun _ _ => rfl).trans ((Finset.sum_range _).trans (sum_congr rfl fun a' _ => ?_))
  refine (pull fun _ _ => pull fun _ _ => pull fun _ _ => rfl).trans ((Finset.sum_range _).trans (sum_congr rfl fun s' _ => ?_))
  refine (Finset.sum_range _).trans (sum_congr rfl fun c' _ => ?_)
  refine sum_congr rfl fun w _ => sum_congr rfl fun c _ => ?_
  ring

theorem norm_eq1 {N : Nat} {dd : Int → Nat} {t : Int → Site 𝕜} {A : Site 𝕜} {n j : Nat} (c : Chain N dd (put1 t (n + 1) A)) (h : n + 1 + j = N)
    (hl : ∀ i : Int, 1 ≤ i → i ≤ n → LO (t i)) (hr : ∀ i : Int, (n : Int) + 2 ≤ i → i ≤ N → RO (t i)) :
    normSq dd N (wave (put1 t (n + 1) A) N) = ‖bl1 A.l A.d A.r A‖ ^ 2 := by
  have e := overlap1 (M := idM) c c rfl h 1
  rw [lv_norm c] at e
  have g1 := lv_gauge c (n := n) (by omega) (fun i i1 i2 => by rw [put1_ne _ _ (by omega)]; exact hl i i1 i2)
  have g2 := rv_gauge c (j := j) (by omega) (fun i i1 i2 => by rw [put1_ne _ _ (by omega)]; exact hr i (by omega) i2)
  have el : lv idM (put1 t (n + 1) A) (put1 t (n + 1) A) n = lv idM t (put1 t (n + 1) A) n := lv_congr idM fun i h1 h2 => ⟨put1_ne _ _ (by omega), rfl⟩
  have er : rv idM N (put1 t (n + 1) A) (put1 t (n + 1) A) j = rv idM N t (put1 t (n + 1) A) j := rv_congr idM fun i h1 h2 => ⟨put1_ne _ _ (by omega), rfl⟩
  rw [show (N : Int) - j = n + 1 by omega] at g2
  rw [put1_self] at g1 g2
  have ek : wf1 idM N 1 t (put1 t (n + 1) A) n j A.l A.d A.r = bl1 A.l A.d A.r A := by
    ext ⟨a', s', c'⟩
    simp only [wf1, projL, lwf, bl1, put1_self, show ∀ i, (idM : Mpo 𝕜).k i = 1 from fun _ => rfl, range_one, sum_singleton, ← el, ← er]
    rw [sum_eq_single (c' : Nat)]
    · rw [g2 _ c'.2 0 _ c'.2, if_pos rfl, mul_one, sum_eq_single (s' : Nat)]
      · rw [sum_eq_single (a' : Nat)]
        · rw [g1 _ a'.2 0 _ a'.2, if_pos rfl]; simp [idM]
        · intro a ha hne; rw [g1 _ a'.2 0 a (by simpa using ha), if_neg (Ne.symm hne), zero_mul]
        · intro hn; exact absurd (mem_range.2 a'.2) hn
      · intro s _ hne; simp [idM, Ne.symm hne]
      · intro hn; exact absurd (mem_range.2 s'.2) hn
    · intro c hc hne; rw [g2 _ c'.2 0 c (by simpa using hc), if_neg (Ne.symm hne), mul_zero]
    · intro hn; exact absurd (mem_range.2 c'.2) hn
  rw [ek, inner_self_eq_norm_sq_to_K, RCLike.ofReal_one, one_mul] at e
  exact_mod_cast e

theorem dist_put1 {M : Mpo 𝕜} {N : Nat} {dd : Int → Nat} {t x : Int → Site 𝕜} {A : Site 𝕜} {n j : Nat} (c : Chain N dd (put1 t (n + 1) A)) (cx : Chain N dd x)
    (hk : M.k N = 1) (h : n + 1 + j = N) (hl : ∀ i : Int, 1 ≤ i → i ≤ n → LO (t i)) (hr : ∀ i : Int, (n : Int) + 2 ≤ i → i ≤ N → RO (t i)) (fac : ℝ) :
    distSq dd N (target M dd N fac (wave x N)) (wave (put1 t (n + 1) A) N) =
      ‖bl1 A.l A.d A.r A - wf1 M N fac t x n j A.l A.d A.r‖ ^ 2 +
        (normSq dd N (target M dd N fac (wave x N)) - ‖wf1 M N fac t x n j A.l A.d A.r‖ ^ 2) := by
  rw [distSq_eq, sandwich_dot, ← lv_sandwich M c cx, overlap1 c cx hk h, norm_eq1 c h hl hr, norm_sub_sq (𝕜 := 𝕜)]
  ring

end Verif.FitOne
