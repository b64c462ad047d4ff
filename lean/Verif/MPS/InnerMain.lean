import Verif.MPS.InnerProps

/-! # Inner products of matrix product states: the results -/

namespace Verif.MPS

open Verif.Tensor Verif.Index Verif.Index.IndexSet Verif.Net Finset

variable {K : Type*} [CommRing K] [DecidableEq K]

/-! ## Sizes of the intermediate tensors -/

theorem prod_le_pow {L : List Nat} {d n : Nat} (hd : 1 ≤ d) (h : ∀ x ∈ L, x ≤ d) (hn : L.length ≤ n) : L.prod ≤ d ^ n := by
  have : L.prod ≤ d ^ L.length := by
    clear hn
    induction L with
    | nil => simp
    | cons x L ih =>
      simp only [List.prod_cons, List.length_cons, pow_succ]
      rw [mul_comm]
      exact Nat.mul_le_mul (ih fun y hy => h y (by simp [hy])) (h x (by simp))
  exact this.trans (Nat.pow_le_pow_right hd hn)

theorem inds_le {ext : Key → Nat} {d : Nat} (hd : 1 ≤ d) (hext : ∀ k, ext k ≤ d) {I L : List Key} (hI : I.Nodup)
    (hsub : ∀ k ∈ I, k ∈ L) {n : Nat} (hL : L.length ≤ n) : (I.map ext).prod ≤ d ^ n := by
  refine prod_le_pow hd ?_ ?_
  · intro x hx
    obtain ⟨k, _, rfl⟩ := List.mem_map.1 hx
    exact hext k
  · rw [List.length_map]
    exact ((List.subperm_of_subset hI hsub).length_le).trans hL

/-- The tensors in the order of multiplication. -/
def interleave {T : Type*} : List T → List T → List T
  | a :: A, b :: B => a :: b :: interleave A B
  | _, _ => []

omit [DecidableEq K] in
theorem sizes2 {ext : Key → Nat} {d fuel : Nat} (hd : 1 ≤ d) (hext : ∀ k, ext k ≤ d) (hmax : ((d ^ 3 : Nat) : Int) ≤ offMax)
    (hfuel : d ^ 3 < fuel) : ∀ (A B : List (Ten Key K)) (left left2 : Key) (s l m : List Key) (t : PTree (Ten Key K)),
    Shape (some left) (A.map (·.inds)) (s.map fun k => [k]) l → Shape (some left2) (B.map (·.inds)) (s.map fun k => [k]) m →
    (∀ T ∈ A, T.OK) → (∀ T ∈ B, T.OK) → (t.eval ext).OK → (∀ k, k ∈ (t.eval ext).inds ↔ k = left ∨ k = left2) →
    (left :: left2 :: (s ++ (l ++ m))).Nodup → SizesOK ext fuel t → SizesOK ext fuel (chainTree t (interleave A B)) := by
  have bound : ∀ {T : Ten Key K} {a b c : Key}, T.OK → (∀ k ∈ T.inds, k = a ∨ k = b ∨ k = c) →
      ((T.inds.map ext).prod : Int) ≤ offMax ∧ (T.inds.map ext).prod < fuel := by
    intro T a b c hT h
    have : (T.inds.map ext).prod ≤ d ^ 3 := inds_le hd hext hT.nodup (L := [a, b, c]) (by
      intro k hk; simpa using h k hk) (by simp)
    exact ⟨le_trans (by exact_mod_cast this) hmax, by omega⟩
  intro A
  induction A with
  | nil => intro B left left2 s l m t h; simp [Shape] at h
  | cons a A ih =>
    intro B left left2 s l m t hA hB okA okB okt ht hnd hst
    rcases B with _ | ⟨b, B⟩
    · simp [Shape] at hB
    have oka := okA a (by simp)
    have okb := okB b (by simp)
    have okta := mul_ok ext okt oka
    have oktab := mul_ok ext okta okb
    rcases s with _ | ⟨s, ss⟩
    · rcases A with _ | ⟨a', A⟩ <;> simp [Shape] at hA
    simp only [List.cons_append, List.nodup_cons, List.mem_cons, List.mem_append, not_or] at hnd
    obtain ⟨⟨p1, p2, p3, p4, p5⟩, ⟨q1, q2, q3, q4⟩, ⟨r1, r2, r3⟩, hnd⟩ := hnd
    rcases A with _ | ⟨a', A⟩
    · -- last site
      rcases ss with _ | ⟨s', ss⟩
      swap
      · simp [Shape] at hA
      rcases l with _ | ⟨l, ls⟩
      swap
      · simp [Shape] at hA
      rcases B with _ | ⟨b', B⟩
      swap
      · rcases m with _ | ⟨m, ms⟩
        · simp [Shape] at hB
        · rcases B with _ | ⟨b'', B⟩ <;> simp [Shape] at hB
      rcases m with _ | ⟨m, ms⟩
      swap
      · simp [Shape] at hB
      simp only [List.map_cons, List.map_nil, Shape, List.mem_singleton, Option.some.injEq] at hA hB
      simp only [interleave, chainTree, SizesOK]
      refine ⟨⟨hst, bound (a := s) (b := left) (c := left) oka fun k hk => ?_, ?_⟩, bound (a := s) (b := left2) (c := left2) okb
        fun k hk => ?_, ?_⟩
      · rcases (hA k).1 hk with h | h
        · exact Or.inl h
        · exact Or.inr (Or.inl h.symm)
      · refine bound (a := s) (b := left2) (c := left2) okta fun k hk => ?_
        simp only [PTree.eval] at hk
        rw [Net.mul_mem, ht, hA] at hk
        grind
      · rcases (hB k).1 hk with h | h
        · exact Or.inl h
        · exact Or.inr (Or.inl h.symm)
      · refine bound (a := s) (b := s) (c := s) oktab fun k hk => ?_
        simp only [PTree.eval] at hk
        rw [Net.mul_mem, Net.mul_mem, ht, hA, hB] at hk
        grind
    · rcases l with _ | ⟨l, ls⟩
      · simp [Shape] at hA
      rcases B with _ | ⟨b', B⟩
      · rcases ss with _ | ⟨s', ss⟩
        · simp [Shape] at hA
        · simp [Shape] at hB
      rcases m with _ | ⟨m, ms⟩
      · simp [Shape] at hB
      simp only [List.map_cons, Shape, List.mem_singleton, Option.some.injEq] at hA hB
      obtain ⟨hA, hA'⟩ := hA
      obtain ⟨hB, hB'⟩ := hB
      have hnd' := hnd
      rw [List.nodup_append] at hnd
      obtain ⟨n1, n2, n3⟩ := hnd
      rw [List.nodup_append] at n2
      obtain ⟨n4, n5, n6⟩ := n2
      simp only [List.mem_cons, not_or] at p4 p5 q3 q4 r2 r3
      have hlm : l ≠ m := n6 l (by simp) m (by simp)
      have memtab : ∀ k, k ∈ (mul ext (mul ext (t.eval ext) a) b).inds ↔ k = l ∨ k = m := by
        intro k
        rw [Net.mul_mem, Net.mul_mem, ht, hA, hB]
        grind
      have memta : ∀ k, k ∈ (mul ext (t.eval ext) a).inds → k = left2 ∨ k = s ∨ k = l := by
        intro k
        rw [Net.mul_mem, ht, hA]
        grind
      rw [interleave]
      simp only [chainTree]
      refine ih (b' :: B) l m ss ls ms _ (by simpa [Shape] using hA') (by simpa [Shape] using hB') (fun T hT => okA T (by simp at hT ⊢; tauto))
        (fun T hT => okB T (by simp at hT ⊢; tauto)) oktab memtab ?_ ?_
      · refine List.nodup_cons.2 ⟨?_, List.nodup_cons.2 ⟨?_, ?_⟩⟩
        · simp only [List.mem_cons, List.mem_append, not_or]
          exact ⟨hlm, fun h => n3 l h l (by simp) rfl, (List.nodup_cons.1 n4).1, fun h => n6 l (by simp) l (by simp [h]) rfl⟩
        · simp only [List.mem_append, not_or]
          exact ⟨fun h => n3 m h m (by simp) rfl, fun h => n6 m (by simp [h]) m (by simp) rfl, (List.nodup_cons.1 n5).1⟩
        · rw [List.nodup_append, List.nodup_append]
          refine ⟨n1, ⟨(List.nodup_cons.1 n4).2, (List.nodup_cons.1 n5).2, fun x hx y hy => n6 x (by simp [hx]) y (by simp [hy])⟩, ?_⟩
          intro x hx y hy
          refine n3 x hx y ?_
          simp only [List.mem_append, List.mem_cons] at hy ⊢
          tauto
      · simp only [SizesOK]
        refine ⟨⟨hst, bound (a := s) (b := left) (c := l) oka fun k hk => ?_, bound (a := left2) (b := s) (c := l) okta memta⟩,
          bound (a := s) (b := left2) (c := m) okb fun k hk => ?_, bound (a := l) (b := m) (c := m) oktab fun k hk => ?_⟩
        · have := (hA k).1 hk; grind
        · have := (hB k).1 hk; grind
        · rw [PTree.eval] at hk
          have := (memtab k).1 hk; tauto

/-! ## The tensors multiplied -/

theorem interleave_perm {T : Type*} : ∀ {A B : List T}, A.length = B.length → (interleave A B).Perm (A ++ B) := by
  intro A
  induction A with
  | nil => intro B h; rcases B with _ | ⟨b, B⟩ <;> simp [interleave] at h ⊢
  | cons a A ih =>
    intro B h
    rcases B with _ | ⟨b, B⟩
    · simp at h
    · simp only [interleave, List.cons_append]
      refine List.Perm.cons a ?_
      exact ((ih (by simpa using h)).cons b).trans List.perm_middle.symm

theorem zip_flatten {T : Type*} : ∀ {A B : List T}, ((A.zip B).map fun q => [q.1, q.2]).flatten = interleave A B := by
  intro A
  induction A with
  | nil => intro B; rcases B with _ | ⟨b, B⟩ <;> rfl
  | cons a A ih =>
    intro B
    rcases B with _ | ⟨b, B⟩
    · rfl
    · simp [interleave, ih]

theorem interleave_map {S T : Type*} (f : S → T) : ∀ {A B : List S}, (interleave A B).map f = interleave (A.map f) (B.map f) := by
  intro A
  induction A with
  | nil => intro B; rcases B with _ | ⟨b, B⟩ <;> rfl
  | cons a A ih =>
    intro B
    rcases B with _ | ⟨b, B⟩
    · rfl
    · simp [interleave, ih]

theorem IsChain.sem_shape {ext : Key → Nat} {A : List (DTensor K)} {S : List (List Key)} {l : List Key}
    (h : IsChain ext A S l) : Shape none ((A.map DTensor.sem).map (·.inds)) S l := by
  rw [List.map_map]; exact h.shape

theorem IsChain.occ {ext : Key → Nat} {A : List (DTensor K)} {S : List (List Key)} {l : List Key} (h : IsChain ext A S l)
    (k : Key) : Net.occ k (A.map DTensor.sem) = (if k ∈ S.flatten then 1 else 0) + (if k ∈ l then 2 else 0) := by
  have := h.sem_shape.occ h.nodup (by simp) k
  simpa using this

theorem IsChain.prod_dep {ext : Key → Nat} {A : List (DTensor K)} {S : List (List Key)} {l : List Key} (h : IsChain ext A S l) :
    DependsOn (· ∈ S.flatten ++ l) (fun τ => (A.map fun T => T.sem.val τ).prod) := by
  have := prodVal_dep (Ts := A.map DTensor.sem) (by
    intro T hT
    obtain ⟨U, hU, rfl⟩ := List.mem_map.1 hT
    exact DTensor.sem_ok (h.ok U hU))
  intro σ τ hst
  have e : ∀ σ, prodVal (A.map DTensor.sem) σ = (A.map fun T => T.sem.val σ).prod := by
    intro σ; unfold prodVal; rw [List.map_map]; rfl
  beta_reduce
  rw [← e, ← e]
  refine this σ τ fun k hk => hst k ?_
  beta_reduce at hk ⊢
  rw [h.occ] at hk
  rw [List.mem_append]
  by_contra hc
  rw [not_or] at hc
  rw [if_neg hc.1, if_neg hc.2] at hk
  omega

theorem IsChain.amp_dep {ext : Key → Nat} {A : List (DTensor K)} {S : List (List Key)} {l : List Key} (h : IsChain ext A S l) :
    DependsOn (· ∈ S.flatten) (amp ext A l) := by
  refine (sumOver_dep ext h.prod_dep l).mono fun k hk => ?_
  rcases List.mem_append.1 hk.1 with h | h
  · exact h
  · exact absurd h hk.2

theorem sizes_inner {ext : Key → Nat} {d fuel : Nat} (hd : 1 ≤ d) (hext : ∀ k, ext k ≤ d) (hmax : ((d ^ 3 : Nat) : Int) ≤ offMax)
    (hfuel : d ^ 3 < fuel) {A B : List (DTensor K)} {a b : DTensor K} {s l m : List Key} (hA : IsMPS ext (a :: A) s l)
    (hB : IsMPS ext (b :: B) s m) (hnd : (s ++ (l ++ m)).Nodup) :
    SizesOK ext fuel (chainTree (.leaf a.sem) ((b :: interleave A B).map DTensor.sem)) := by
  have bound : ∀ {T : Ten Key K} {x y z : Key}, T.OK → (∀ k ∈ T.inds, k = x ∨ k = y ∨ k = z) →
      ((T.inds.map ext).prod : Int) ≤ offMax ∧ (T.inds.map ext).prod < fuel := by
    intro T a b c hT h
    have : (T.inds.map ext).prod ≤ d ^ 3 := inds_le hd hext hT.nodup (L := [a, b, c]) (by
      intro k hk; simpa using h k hk) (by simp)
    exact ⟨le_trans (by exact_mod_cast this) hmax, by omega⟩
  have okA : ∀ T ∈ (a :: A).map DTensor.sem, T.OK := by
    intro T hT
    obtain ⟨U, hU, rfl⟩ := List.mem_map.1 hT
    exact DTensor.sem_ok (hA.ok U hU)
  have okB : ∀ T ∈ (b :: B).map DTensor.sem, T.OK := by
    intro T hT
    obtain ⟨U, hU, rfl⟩ := List.mem_map.1 hT
    exact DTensor.sem_ok (hB.ok U hU)
  have sA := hA.sem_shape
  have sB := hB.sem_shape
  rw [List.map_cons, interleave_map]
  rw [List.map_cons] at okA okB
  rw [List.map_cons] at sA sB
  clear hA hB
  generalize a.sem = a at *
  generalize b.sem = b at *
  generalize A.map DTensor.sem = A at *
  generalize B.map DTensor.sem = B at *
  have oka := okA a (by simp)
  have okb := okB b (by simp)
  have okab := mul_ok ext oka okb
  rcases s with _ | ⟨s, ss⟩
  · rcases A with _ | ⟨a', A⟩ <;> simp [Shape] at sA
  simp only [List.cons_append, List.nodup_cons, List.mem_append, not_or] at hnd
  obtain ⟨⟨r1, r2, r3⟩, hnd⟩ := hnd
  rcases A with _ | ⟨a', A⟩
  · rcases ss with _ | ⟨s', ss⟩
    swap
    · simp [Shape] at sA
    rcases l with _ | ⟨l, ls⟩
    swap
    · simp [Shape] at sA
    rcases B with _ | ⟨b', B⟩
    swap
    · rcases m with _ | ⟨m, ms⟩
      · simp [Shape] at sB
      · rcases B with _ | ⟨b'', B⟩ <;> simp [Shape] at sB
    rcases m with _ | ⟨m, ms⟩
    swap
    · simp [Shape] at sB
    simp only [List.map_cons, List.map_nil, Shape, List.mem_singleton, reduceCtorEq, or_false] at sA sB
    simp only [interleave, chainTree, SizesOK]
    refine ⟨bound (x := s) (y := s) (z := s) oka fun k hk => Or.inl ((sA k).1 hk), bound (x := s) (y := s) (z := s) okb
      fun k hk => Or.inl ((sB k).1 hk), bound (x := s) (y := s) (z := s) okab fun k hk => ?_⟩
    simp only [PTree.eval] at hk
    rw [Net.mul_mem, sA, sB] at hk
    grind
  · rcases l with _ | ⟨l, ls⟩
    · simp [Shape] at sA
    rcases B with _ | ⟨b', B⟩
    · rcases ss with _ | ⟨s', ss⟩
      · simp [Shape] at sA
      · simp [Shape] at sB
    rcases m with _ | ⟨m, ms⟩
    · simp [Shape] at sB
    simp only [List.map_cons, Shape, List.mem_singleton, reduceCtorEq, false_or] at sA sB
    obtain ⟨sA, sA'⟩ := sA
    obtain ⟨sB, sB'⟩ := sB
    rw [List.nodup_append] at hnd
    obtain ⟨n1, n2, n3⟩ := hnd
    rw [List.nodup_append] at n2
    obtain ⟨n4, n5, n6⟩ := n2
    simp only [List.mem_cons, not_or] at r2 r3
    have hlm : l ≠ m := n6 l (by simp) m (by simp)
    have memab : ∀ k, k ∈ (mul ext a b).inds ↔ k = l ∨ k = m := by
      intro k
      rw [Net.mul_mem, sA, sB]
      grind
    rw [chainTree]
    refine sizes2 hd hext hmax hfuel (a' :: A) (b' :: B) l m ss ls ms _ (by simpa [Shape] using sA') (by simpa [Shape] using sB')
      (fun T hT => okA T (by simp at hT ⊢; tauto)) (fun T hT => okB T (by simp at hT ⊢; tauto)) okab memab ?_ ?_
    · refine List.nodup_cons.2 ⟨?_, List.nodup_cons.2 ⟨?_, ?_⟩⟩
      · simp only [List.mem_cons, List.mem_append, not_or]
        exact ⟨hlm, fun h => n3 l h l (by simp) rfl, (List.nodup_cons.1 n4).1, fun h => n6 l (by simp) l (by simp [h]) rfl⟩
      · simp only [List.mem_append, not_or]
        exact ⟨fun h => n3 m h m (by simp) rfl, fun h => n6 m (by simp [h]) m (by simp) rfl, (List.nodup_cons.1 n5).1⟩
      · rw [List.nodup_append, List.nodup_append]
        refine ⟨n1, ⟨(List.nodup_cons.1 n4).2, (List.nodup_cons.1 n5).2, fun x hx y hy => n6 x (by simp [hx]) y (by simp [hy])⟩, ?_⟩
        intro x hx y hy
        refine n3 x hx y ?_
        simp only [List.mem_append, List.mem_cons] at hy ⊢
        tauto
    · simp only [SizesOK]
      exact ⟨bound (x := s) (y := l) (z := l) oka fun k hk => by have := (sA k).1 hk; tauto,
        bound (x := s) (y := m) (z := m) okb fun k hk => by have := (sB k).1 hk; tauto,
        bound (x := l) (y := m) (z := m) okab fun k hk => by have := (memab k).1 hk; tauto⟩

/-- The fresh link indices: ids that are neither zero nor used by any other index, and as long as the links
they replace. -/
structure Fresh (ext : Key → Nat) (newid : Key → Nat) (l used : List Key) : Prop where
  ne_zero : ∀ k ∈ l, newid k ≠ 0
  nodup : (l.map (simKey newid)).Nodup
  unused : ∀ k ∈ l, simKey newid k ∉ used
  ext_eq : ∀ k ∈ l, ext (simKey newid k) = ext k

/-- C56: `innerC(psi,phi)` is the sum over all values of the site indices of the conjugated component of `psi` times the
component of `phi`, whatever the site indices of the two states are called, and whether or not their links are the same indices.
Every intermediate tensor has at most `d ^ 3` elements. -/
theorem C56_inner {ext : Key → Nat} {psi phi : List (DTensor K)} {s l s' l' : List Key} (hpsi : IsMPS ext psi s l)
    (hphi : IsMPS ext phi s' l') (hdim : s'.map ext = s.map ext) (hdis : ∀ k ∈ s', k ∉ l) (conj : K →+* K)
    {newid : Key → Nat} (hf : Fresh ext newid l (s' ++ l')) {d fuel : Nat} (hd : 1 ≤ d) (hext : ∀ k, ext k ≤ d)
    (hmax : ((d ^ 3 : Nat) : Int) ≤ offMax) (hfuel : d ^ 3 < fuel) (junk fresh : Int → K) :
    innerC fuel junk fresh conj newid psi phi = some (.ok (sumVals (s'.map ext) fun v =>
      conj (amp ext psi l (assign 0 s v)) * amp ext phi l' (assign 0 s' v))) := by
  have nd := hpsi.nodup
  have nd' := hphi.nodup
  rw [flatten_single] at nd nd'
  have hsn := (List.nodup_append.1 nd).1
  have hsn' := (List.nodup_append.1 nd').1
  have hln' := (List.nodup_append.1 nd').2.1
  have hlen : s.length = s'.length := by simpa using (congrArg List.length hdim).symm
  have hsl : ∀ k ∈ s, k ∉ l := fun k hk hk' => (List.nodup_append.1 nd).2.2 k hk k hk' rfl
  have hsl' : ∀ k ∈ s', k ∉ l' := fun k hk hk' => (List.nodup_append.1 nd').2.2 k hk k hk' rfl
  obtain ⟨ren, hs, hren⟩ := exists_ren (simKey newid) hsn hlen
  have hrl : ∀ k ∈ l, ren k = simKey newid k := fun k hk => hren k fun h => hsl k h hk
  have hml : l.map ren = l.map (simKey newid) := List.map_congr_left hrl
  have hmn : (l.map ren).Nodup := by rw [hml]; exact hf.nodup
  have hmu : ∀ k ∈ l.map ren, k ∉ s' ++ l' := by
    intro k hk
    obtain ⟨k', hk', rfl⟩ := List.mem_map.1 hk
    rw [hrl k' hk']; exact hf.unused k' hk'
  obtain ⟨p, hp, hrp⟩ := bra_spec hpsi hphi conj hs hrl hdim hdis hf.ne_zero hmn
  have hnd1 : (s' ++ l.map ren).Nodup := by
    rw [List.nodup_append]
    exact ⟨hsn', hmn, fun x hx y hy e => hmu y hy (by rw [← e]; simp [hx])⟩
  have hS : (s.map fun k => [k]).map (·.map ren) = s'.map fun k => [k] := by
    rw [← hs]; simp [Function.comp_def]
  have he : ∀ k ∈ (s.map fun k => [k]).flatten ++ l, ext (ren k) = ext k := by
    rw [flatten_single]
    intro k hk
    rcases List.mem_append.1 hk with hk | hk
    · have : s.map (fun k => ext (ren k)) = s.map ext := by
        rw [← hdim, ← hs, List.map_map]; rfl
      exact List.map_inj_left.1 this k hk
    · rw [hrl k hk]; exact hf.ext_eq k hk
  have hpm : IsMPS ext p s' (l.map ren) := by
    have := hpsi.renamed hrp (by rw [hS, flatten_single]; exact hnd1) he
    rwa [hS] at this
  have hnd2 : (s' ++ (l' ++ l.map ren)).Nodup := by
    rw [List.nodup_append, List.nodup_append]
    refine ⟨hsn', ⟨hln', hmn, fun x hx y hy e => hmu y hy (by rw [← e]; simp [hx])⟩, fun x hx y hy e => ?_⟩
    subst e
    rcases List.mem_append.1 hy with h | h
    · exact hsl' x hx h
    · exact hmu x h (by simp [hx])
  have hlp : psi.length = p.length := hrp.length_eq
  have lenS : ∀ {M S : List (List Key)} {l : List Key} {left : Option Key}, Shape left M S l → M.length = S.length := by
    intro M S l left h
    exact Shape.chain (motive := fun left M S l => M.length = S.length) (fun _ _ _ _ => rfl)
      (fun _ _ _ _ _ _ _ _ _ _ ih => by simpa using ih) M left S l h
  have hlpsi : psi.length = s.length := by simpa using lenS hpsi.shape
  have hlphi : phi.length = s'.length := by simpa using lenS hphi.shape
  rcases phi with _ | ⟨a, A⟩
  · exact absurd hphi.shape (by simp [Shape])
  rcases p with _ | ⟨b, B⟩
  · exact absurd hpm.shape (by simp [Shape])
  have hAB : A.length = B.length := by simp only [List.length_cons] at hlphi hlp; omega
  have hfl : a :: ([b] ++ ((A.zip B).map fun q => [q.1, q.2]).flatten) = interleave (a :: A) (b :: B) := by
    rw [zip_flatten]; rfl
  have hperm : (interleave (a :: A) (b :: B)).Perm ((a :: A) ++ (b :: B)) := interleave_perm (by simpa using hAB)
  have hocc : ∀ k, occ k ((a :: ([b] ++ ((A.zip B).map fun q => [q.1, q.2]).flatten)).map DTensor.sem) =
      ((if k ∈ s' then 1 else 0) + (if k ∈ l' then 2 else 0)) + ((if k ∈ s' then 1 else 0) + (if k ∈ l.map ren then 2 else 0)) := by
    intro k
    have h1 := hphi.occ k
    have h2 := hpm.occ k
    rw [flatten_single] at h1 h2
    rw [hfl, ← h1, ← h2, ← occ_append, ← List.map_append]
    exact (hperm.map _).countP_eq _
  have hx1 : ∀ k, k ∈ s' → k ∉ l' := hsl'
  have hx2 : ∀ k, k ∈ l.map ren → k ∉ s' ∧ k ∉ l' := fun k hk => by simpa [not_or] using hmu k hk
  rw [innerC, if_neg (by simp only [ne_eq, not_not]; omega), hp]
  simp only [List.zip_cons_cons, List.map_cons]
  rw [sandwich_spec (ext := ext) junk fresh (D := s' ++ (l' ++ l.map ren)) (σ := 0)]
  · congr 2
    rw [hfl]
    have hprod : ∀ τ : Key → Nat, ((interleave (a :: A) (b :: B)).map fun U => U.sem.val τ).prod =
        ((a :: A).map fun U => U.sem.val τ).prod * ((b :: B).map fun U => U.sem.val τ).prod := by
      intro τ
      rw [← List.prod_append, ← List.map_append]
      exact (hperm.map _).prod_eq
    simp only [hprod]
    rw [sumOver_append]
    have hin : ∀ τ, sumOver ext (l' ++ l.map ren) (fun τ => ((a :: A).map fun U => U.sem.val τ).prod *
        ((b :: B).map fun U => U.sem.val τ).prod) τ = amp ext (a :: A) l' τ * amp ext (b :: B) (l.map ren) τ := by
      intro τ
      rw [sumOver_append]
      have e1 : sumOver ext (l.map ren) (fun τ => ((a :: A).map fun U => U.sem.val τ).prod * ((b :: B).map fun U => U.sem.val τ).prod) =
          fun τ => ((a :: A).map fun U => U.sem.val τ).prod * amp ext (b :: B) (l.map ren) τ := by
        funext τ
        refine sumOver_mul_left ext (l.map ren) τ (hphi.prod_dep.mono fun k hk hk' => ?_)
        rw [flatten_single] at hk
        exact hmu k hk' hk
      rw [e1]
      refine sumOver_mul_right ext l' τ (hpm.amp_dep.mono fun k hk hk' => ?_)
      rw [flatten_single] at hk
      exact hsl' k hk hk'
    rw [funext hin, sumOver_vals]
    refine sumVals_congr fun v hv => ?_
    rw [mul_comm]
    congr 1
    refine amp_renamed hpsi hrp (by rw [flatten_single, List.map_append, hs]; exact hnd1) he _ _ ?_
    rw [flatten_single]
    intro k hk
    rcases List.mem_append.1 hk with hk | hk
    · obtain ⟨n, hn, rfl⟩ := List.getElem_of_mem hk
      have hn' : n < s'.length := by omega
      have hv' : n < v.length := by simp only [List.length_map] at hv; omega
      rw [assign_getElem hsn n hn hv']
      have : ren s[n] = s'[n] := by simp only [← hs, List.getElem_map]
      rw [this, assign_getElem hsn' n hn' hv']
    · have hkm : ren k ∈ l.map ren := List.mem_map_of_mem hk
      rw [assign_not_mem (hx2 _ hkm).1, assign_not_mem fun h => hsl k h hk]
      rfl
  · rw [hfl]
    intro U hU
    have := hperm.mem_iff.1 hU
    rcases List.mem_append.1 this with h | h
    · exact hphi.ok U h
    · exact hpm.ok U h
  · rw [zip_flatten]
    exact sizes_inner hd hext hmax hfuel hphi hpm hnd2
  · intro k
    rw [hocc]
    have := hx1 k
    have := hx2 k
    grind
  · exact hnd2
  · intro k
    rw [hocc]
    simp only [List.mem_append]
    have := hx1 k
    have := hx2 k
    grind

/-- C56: states of different lengths are rejected. -/
theorem C56_inner_length (fuel : Nat) (junk fresh : Int → K) (conj : K →+* K) (newid : Key → Nat) {psi phi : List (DTensor K)}
    (h : psi.length ≠ phi.length) : innerC fuel junk fresh conj newid psi phi = some .throw := by
  rw [innerC, if_pos h]

end Verif.MPS
