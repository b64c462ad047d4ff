import Verif.MPS.Dmrg
import Mathlib.Algebra.BigOperators.Group.List.Basic

/-! # Moving the centre keeps the state; examples -/

namespace Verif.Limits

variable {T : Type*} {o : Ops T} {LO RO : T → Prop}

/-- The amplitude of the state for one value of each site index. `val v a` is the matrix of a tensor for the value `v` of its site
index; matrices of any sizes are taken as elements of one monoid (say, endomorphisms of finitely supported sequences). -/
def amp {V M : Type*} [Monoid M] (val : V → T → M) (σ : Int → V) (s : MPS T) : M :=
  ((List.range s.N).map fun (k : Nat) => val (σ ((k : Int) + 1)) (s.t ((k : Int) + 1))).prod

/-- A factorization without truncation keeps the product of the two tensors, for all values of their site indices. -/
def Keeps {V M : Type*} [Monoid M] (o : Ops T) (val : V → T → M) : Prop :=
  ∀ a b, o.link a b → ∀ v w, val v (o.orthL a b).1 * val w (o.orthL a b).2 = val v a * val w b ∧
    val v (o.orthR a b).1 * val w (o.orthR a b).2 = val v a * val w b

theorem prod_two {M : Type*} [Monoid M] {f g : Nat → M} {m : Nat} (hm : f m * f (m + 1) = g m * g (m + 1))
    (h : ∀ k, k ≠ m → k ≠ m + 1 → f k = g k) : ∀ n, m + 1 < n → ((List.range n).map f).prod = ((List.range n).map g).prod := by
  intro n
  induction n with
  | zero => intro h; omega
  | succ n ih =>
    intro hn
    rw [List.range_succ, List.map_append, List.map_append, List.prod_append, List.prod_append]
    by_cases e : n = m + 1
    · subst e
      have : (List.range m).map f = (List.range m).map g :=
        List.map_congr_left fun k hk => h k (by have := List.mem_range.mp hk; omega) (by have := List.mem_range.mp hk; omega)
      rw [List.range_succ, List.map_append, List.map_append, List.prod_append, List.prod_append, this]
      simp only [List.map_cons, List.map_nil, List.prod_cons, List.prod_nil, mul_one]
      rw [mul_assoc, mul_assoc, hm]
    · rw [ih (by omega)]
      simp only [List.map_cons, List.map_nil, List.prod_cons, List.prod_nil, mul_one]
      rw [h n (by omega) e]

theorem amp_set2 {V M : Type*} [Monoid M] {val : V → T → M} {σ : Int → V} {s : MPS T} {b : Int} {p : T × T}
    (h1 : 1 ≤ b) (h2 : b < s.N) (h : ∀ v w, val v p.1 * val w p.2 = val v (s.t b) * val w (s.t (b + 1))) :
    amp val σ (set2 s b p) = amp val σ s := by
  unfold amp
  obtain ⟨m, rfl⟩ : ∃ m : Nat, b = (m : Int) + 1 := ⟨(b - 1).toNat, by omega⟩
  refine prod_two (m := m) ?_ ?_ _ (by simp only [set2]; omega)
  · have e : (((m + 1 : Nat) : Int) + 1) = (m : Int) + 1 + 1 := by push_cast; ring
    rw [e, set2_fst, set2_snd]
    exact h _ _
  · intro k h1 h2
    rw [set2_ne s p (by omega) (by omega)]

/-- C63. Moving the orthogonality centre to any site, in either mode and after any sequence of calls, keeps every amplitude of the
state. -/
theorem C63_gauge {V M : Type*} [Monoid M] {val : V → T → M} (f : Factor o LO RO) (hk : Keeps o val) {s : MPS T} (h : Reach o LO RO s)
    {i : Int} (h1 : 1 ≤ i) (h2 : i ≤ s.N) :
    ∀ c ∈ [Call.position i, Call.positionSVD i], ∃ s', c.run o s = .ok s' ∧ s'.N = s.N ∧ ∀ σ, amp val σ s' = amp val σ s := by
  have hs := C40_limits f h
  have qL : ∀ s1, Sound o LO RO s1 → s1.l + 2 ≤ s1.N → (∀ σ, amp val σ s1 = amp val σ s) → ∀ σ, amp val σ (adv o s1) = amp val σ s := by
    intro s1 h hl hq σ
    rw [← hq σ]
    have := h.lo
    exact amp_set2 (by omega) (by omega) fun v w => (hk _ _ (h.linked _ (by omega) (by omega)) v w).1
  have qR : ∀ s1, Sound o LO RO s1 → 3 ≤ s1.r → (∀ σ, amp val σ s1 = amp val σ s) → ∀ σ, amp val σ (ret o s1) = amp val σ s := by
    intro s1 h hl hq σ
    rw [← hq σ]
    have := h.hi
    exact amp_set2 (by omega) (by omega) fun v w => (hk _ _ (h.linked _ (by omega) (by omega)) v w).2
  intro c hc
  simp only [List.mem_cons, List.not_mem_nil, or_false] at hc
  rcases hc with rfl | rfl
  · obtain ⟨s', e, _, hN, _, _, q⟩ := positionWith_spec (sL := stepL o) (sR := stepR o) f (fun s h hl => stepL_eq h hl)
      (fun s h hl => stepR_eq h hl) qL qR hs h1 h2 (fun _ => rfl)
    exact ⟨s', e, hN, q⟩
  · obtain ⟨s', e, _, hN, _, _, q⟩ := positionWith_spec (sL := svdStepL o.orthL) (sR := svdStepR o.orthR) f
      (fun s h hl => svdStepL_eq h hl) (fun s h hl => svdStepR_eq h hl) qL qR hs h1 h2 (fun _ => rfl)
    exact ⟨s', e, hN, q⟩

/-! ## Product states -/

/-- A site of a product state: the names of its link indices (0 for none), a factor, and which basis state. -/
structure Site where
  lk : Nat
  rk : Nat
  a : Int
  e : Bool
deriving DecidableEq

/-- Factorizations of product states: the factor is moved on. -/
def prodOps : Ops Site where
  link x y := x.rk = y.lk && x.rk ≠ 0
  orthL x y := ({ x with a := 1 }, { y with a := x.a * y.a })
  orthR x y := ({ x with a := x.a * y.a }, { y with a := 1 })

/-- The site is normalized. -/
def unit (x : Site) : Prop := x.a = 1

/-- The amplitude of a site. -/
def siteVal (v : Bool) (x : Site) : Int := if v = x.e then x.a else 0

theorem prodFactor : Factor prodOps unit unit where
  left _ _ _ := rfl
  right _ _ _ := rfl
  midL _ _ h := h
  midR _ _ h := h
  prevL _ _ _ h _ := h
  prevR _ _ _ h _ := h
  nextL _ _ _ h _ := h
  nextR _ _ _ h _ := h

theorem prodKeeps : Keeps prodOps siteVal := by
  intro a b _ v w
  simp only [siteVal, prodOps]
  by_cases h : v = a.e <;> by_cases h' : w = b.e <;> simp [h, h']

/-- Three sites with the factors 2, 3, 5. -/
def three : MPS Site where
  N := 3
  t i := if i = 1 then ⟨0, 1, 2, true⟩ else if i = 2 then ⟨1, 2, 3, false⟩ else if i = 3 then ⟨2, 0, 5, true⟩ else ⟨0, 0, 1, true⟩
  l := 0
  r := 4

theorem three_reach : Reach prodOps unit unit three :=
  .init 3 _ (by norm_num) (by
    intro i h1 h2
    have : i = 1 ∨ i = 2 := by simp at h2; omega
    rcases this with rfl | rfl <;> decide)

/-- The tensors of the three sites, and the limits. -/
def show3 (r : Res (MPS Site)) : Res (List (Int × Bool) × Int × Int) :=
  r.map fun s => ([1, 2, 3].map fun i => ((s.t i).a, (s.t i).e), s.l, s.r)

example : show3 (position prodOps three 2) = .ok ([(1, true), (30, false), (1, true)], 1, 3) := by decide +kernel

/-- A longer sequence of calls, in which a site left of the centre is changed: the left limit goes back to 0. -/
example : show3 ((position prodOps three 3).bind fun s => set s 1 ⟨0, 1, 7, true⟩) =
    .ok ([(7, true), (1, false), (30, true)], 0, 4) := by decide +kernel

example : show3 ((position prodOps three 3).bind fun s => (set s 1 ⟨0, 1, 7, true⟩).bind fun s => positionSVD prodOps s 1) =
    .ok ([(210, true), (1, false), (1, true)], 0, 2) := by decide +kernel

/-- A state that is reached with a changed site meets the hypotheses of the theorems. -/
example : ∃ s, Reach prodOps unit unit s ∧ show3 (.ok s) = .ok ([(2, true), (7, true), (5, true)], 0, 4) :=
  ⟨_, three_reach.call (.set 2 ⟨1, 2, 7, true⟩) ⟨by norm_num, by decide, fun _ => by decide, fun _ => by decide⟩ rfl, by decide +kernel⟩

/-- C40. `position(0)` is accepted. Afterwards the centre is said to be at site 0, which does not exist, and site 1 is said to be
right-orthogonal, which it is not. -/
theorem C40_zero_counterexample :
    ∃ s, position prodOps three 0 = .ok s ∧ orthoCenter s = .ok 0 ∧ s.r = 1 ∧ ¬ unit (s.t 1) := by
  refine ⟨_, rfl, by decide +kernel, by decide +kernel, ?_⟩
  unfold unit
  decide +kernel

/-- C40. When two neighbouring sites have no index in common (as for a product state whose tensors were set by the user), `position`
moves the limits past a site that is not orthogonal. -/
theorem C40_unlinked_counterexample :
    ∃ s, position prodOps { three with t := fun i => { three.t i with lk := 0, rk := 0 } } 3 = .ok s ∧ orthoCenter s = .ok 3 ∧
      ¬ unit (s.t 1) := by
  refine ⟨_, rfl, by decide +kernel, ?_⟩
  unfold unit
  decide +kernel

/-! ## A calculation -/

/-- The new tensors at a bond: another state is chosen in each round, and the factor is changed. -/
def dmrgEnv : Dmrg.Env Site (List (Int × Int × Bool)) Nat where
  absorb i e x := (e.getD []) ++ [(i, x.a, x.e)]
  fac k psi _ _ b d :=
    let x := psi.t b
    let y := psi.t (b + 1)
    match d with
    | .left => .ok (({ x with a := 1, e := !x.e }, { y with a := x.a * y.a + k }), k)
    | .right => .ok (({ x with a := x.a * y.a + k }, { y with a := 1, e := !y.e }), k)
  write sw := sw = 2
  norm x := { x with a := 1 }

theorem dmrgGood : Dmrg.Good prodOps unit unit dmrgEnv := by
  intro k psi L R b d hs h1 h2
  have hm := hs.linked b h1 h2
  have hp : 2 ≤ b → prodOps.link (psi.t (b - 1)) (psi.t b) := fun h => by
    have := hs.linked (b - 1) (by omega) (by omega)
    rwa [show b - 1 + 1 = b by ring] at this
  have hn : b + 2 ≤ psi.N → prodOps.link (psi.t (b + 1)) (psi.t (b + 2)) := fun h => by
    have := hs.linked (b + 1) (by omega) (by omega)
    rwa [show b + 1 + 1 = b + 2 by ring] at this
  cases d with
  | left => exact ⟨_, _, rfl, h1, h2, hm, hp, hn, fun _ => rfl, by simp⟩
  | right => exact ⟨_, _, rfl, h1, h2, hm, hp, hn, by simp, fun _ => rfl⟩

example := Dmrg.C62_dmrg prodFactor dmrgGood ⟨fun _ _ h => h, fun _ _ h => h⟩ three_reach (by decide) 3 (fuel := 6) (by decide)

/-- Two sweeps on three sites, of which the second writes to disk. -/
def demo : Option (Res (List (List Int))) :=
  (Dmrg.dmrg prodOps dmrgEnv 6 2 three (LocalMPO.make 3 none none 2 true)).map fun r => r.map fun j =>
    j.log.map fun e => [e.b, e.ha] ++ (e.L.getD []).map (fun x => cond x.2.2 x.1 (-x.1)) ++ (e.R.getD []).map (fun x => cond x.2.2 x.1 (-x.1))

/-- Which bond and half sweep, and the site in the environments (negative if in the other basis state). -/
example : demo = some (.ok [[1, 1, 3], [2, 1, -1], [2, 2, -1], [1, 2, -3], [1, 1, -3], [2, 1, 1], [2, 2, 1], [1, 2, 3]]) := by
  decide +kernel

end Verif.Limits
