import Mathlib.Algebra.BigOperators.Ring.Finset
import Mathlib.Data.Fintype.BigOperators
import Verif.AutoMPO.Sites
import Verif.AutoMPO.TermsProps

/-!
# Fermionic operators of a chain and their local operators (C51)
-/

namespace Verif.AutoMPO

open Finset

variable {K : Type*} [CommRing K] {N : Nat} {D : Fin N → Nat}

/-- The operator on the chain which is `o n` on site `n`. -/
def kron (o : ∀ n, Matrix (Fin (D n)) (Fin (D n)) K) : Matrix (∀ n, Fin (D n)) (∀ n, Fin (D n)) K :=
  Matrix.of fun s t => ∏ n, o n (s n) (t n)

theorem kron_mul (o p : ∀ n, Matrix (Fin (D n)) (Fin (D n)) K) : kron o * kron p = kron fun n => o n * p n := by
  ext s t
  simp only [kron, Matrix.mul_apply, Matrix.of_apply, ← Finset.prod_mul_distrib]
  rw [Finset.prod_univ_sum]
  simp

theorem kron_one : kron (fun n : Fin N => (1 : Matrix (Fin (D n)) (Fin (D n)) K)) = 1 := by
  ext s t
  simp only [kron, Matrix.of_apply, Matrix.one_apply]
  by_cases h : s = t
  · simp [h]
  · rw [if_neg h]
    obtain ⟨n, hn⟩ := Function.ne_iff.1 h
    exact Finset.prod_eq_zero (Finset.mem_univ n) (if_neg hn)

theorem kron_smul (c : Fin N → K) (o : ∀ n, Matrix (Fin (D n)) (Fin (D n)) K) :
    kron (fun n => c n • o n) = (∏ n, c n) • kron o := by
  ext s t
  simp [kron, Finset.prod_mul_distrib]

/-- The operators of the sites: those of fermions have names starting with `C`. `ops a n` is what `sites.op(a,n+1)`
returns, and `P` says which names are looked at. -/
structure Fermi (ops : Name → ∀ n : Fin N, Option (Matrix (Fin (D n)) (Fin (D n)) K)) (P : Name → Prop) where
  F : ∀ n, Matrix (Fin (D n)) (Fin (D n)) K
  F_op : ∀ n, ops nF n = some (F n)
  Id_op : ∀ n, ops nId n = some 1
  F_F : ∀ n, F n * F n = 1
  odd : ∀ a n x, P a → fermiName a = true → ops a n = some x → F n * x = -(x * F n)
  even : ∀ a n x, P a → fermiName a = false → ops a n = some x → F n * x = x * F n
  rewrite : ∀ a n, P a → fermiName a = true → ops (fermionicTerm a) n = ops a n

variable {ops : Name → ∀ n : Fin N, Option (Matrix (Fin (D n)) (Fin (D n)) K)} {P : Name → Prop} [DecidablePred P]

/-- The factor on site `n` (from 0) of the operator `a` of site `i` (from 1): the operator itself on its own site, and `F`
on the sites to the left if it is an operator of fermions. -/
def jwSite (A : Fermi ops P) (a : Name) (i : Int) (n : Fin N) : Matrix (Fin (D n)) (Fin (D n)) K :=
  if ((n.val + 1 : Nat) : Int) < i then if fermiName a then A.F n else 1
  else if ((n.val + 1 : Nat) : Int) = i then (ops a n).getD 0
  else 1

/-- The operator `a` of site `i` as an operator on the chain (Jordan-Wigner), zero for other names and sites. -/
def jw (A : Fermi ops P) (a : Name) (i : Int) : Matrix (∀ n, Fin (D n)) (∀ n, Fin (D n)) K :=
  if P a ∧ 1 ≤ i ∧ i ≤ N then kron (jwSite A a i) else 0

omit [DecidablePred P] in
theorem getD_odd (A : Fermi ops P) {a : Name} (ha : P a) (hf : fermiName a = true) (n : Fin N) :
    (ops a n).getD 0 * A.F n = -1 • (A.F n * (ops a n).getD 0) := by
  cases h : ops a n with
  | none => simp
  | some x => simp [A.odd a n x ha hf h]

omit [DecidablePred P] in
theorem getD_even (A : Fermi ops P) {a : Name} (ha : P a) (hf : fermiName a = false) (n : Fin N) :
    (ops a n).getD 0 * A.F n = A.F n * (ops a n).getD 0 := by
  cases h : ops a n with
  | none => simp
  | some x => simp [A.even a n x ha hf h]

omit [DecidablePred P] in
theorem jwSite_comm (A : Fermi ops P) {a b : Name} (ha : P a) {i j : Int} (hij : i < j) (n : Fin N) :
    jwSite A a i n * jwSite A b j n =
      (if ((n.val + 1 : Nat) : Int) = i then (if fermiName a = true ∧ fermiName b = true then -1 else 1 : K) else 1) •
        (jwSite A b j n * jwSite A a i n) := by
  unfold jwSite
  rcases lt_trichotomy ((n.val + 1 : Nat) : Int) i with h | h | h
  · have h1 : ((n.val + 1 : Nat) : Int) < j := by omega
    have h2 : ¬((n.val + 1 : Nat) : Int) = i := by omega
    simp only [h, h1, h2, if_true, if_false]
    by_cases fa : fermiName a = true <;> by_cases fb : fermiName b = true <;> simp [fa, fb]
  · have h1 : ((n.val + 1 : Nat) : Int) < j := by omega
    have h2 : ¬((n.val + 1 : Nat) : Int) < i := by omega
    simp only [h, h1, h2, if_true, if_false, lt_irrefl, hij]
    by_cases fb : fermiName b = true
    · by_cases fa : fermiName a = true
      · simp only [fa, fb, if_true, and_self]
        rw [getD_odd A ha fa]
        simp
      · simp only [fa, fb, if_true, Bool.false_eq_true, false_and, if_false]
        rw [getD_even A ha (by simpa using fa)]
        simp
    · simp [fb]
  · have h2 : ¬((n.val + 1 : Nat) : Int) = i := by omega
    have h3 : ¬((n.val + 1 : Nat) : Int) < i := by omega
    simp only [h2, h3, if_false, mul_one, one_mul, one_smul]

theorem jw_comm (A : Fermi ops P) (a b : Name) {i j : Int} (hij : i < j) :
    jw A a i * jw A b j = (if fermiName a = true ∧ fermiName b = true then -1 else 1 : K) • (jw A b j * jw A a i) := by
  by_cases h1 : P a ∧ 1 ≤ i ∧ i ≤ N
  · by_cases h2 : P b ∧ 1 ≤ j ∧ j ≤ N
    · rw [jw, if_pos h1, jw, if_pos h2, kron_mul, kron_mul]
      simp only [jwSite_comm A h1.1 hij]
      rw [kron_smul]
      congr 1
      have hk : i.toNat - 1 < N := by omega
      rw [Finset.prod_eq_single (⟨i.toNat - 1, hk⟩ : Fin N)]
      · rw [if_pos]
        simp only
        omega
      · intro n _ hn
        rw [if_neg]
        intro h
        exact hn (Fin.ext (by simp only; omega))
      · simp
    · rw [jw, jw, if_neg h2]
      simp
  · rw [jw, if_neg h1]
    simp

/-- The operators of different sites commute or anticommute, as C48 and C49 need. -/
theorem jw_graded (A : Fermi ops P) : Graded K (jw A) := by
  intro a b i j hij
  rcases lt_or_gt_of_ne hij with h | h
  · exact jw_comm A a b h
  · rw [jw_comm A b a h, smul_smul]
    by_cases fa : fermiName a = true <;> by_cases fb : fermiName b = true <;> simp [fa, fb]

theorem prodOps_jw (A : Fermi ops P) (l : List SiteTerm) (hl : ∀ t ∈ l, P t.op ∧ 1 ≤ t.i ∧ t.i ≤ N) :
    prodOps (jw A) l = kron fun n => (l.map fun t => jwSite A t.op t.i n).prod := by
  induction l with
  | nil => simp [prodOps, kron_one]
  | cons t l ih =>
    rw [prodOps_cons, ih fun u hu => hl u (by simp [hu]), jw, if_pos (hl t (by simp)), kron_mul]
    simp

section Local

omit [DecidablePred P] in
theorem right_prod (A : Fermi ops P) (n : Fin N) : ∀ l : List SiteTerm, (∀ t ∈ l, ((n.val + 1 : Nat) : Int) < t.i) →
    (l.map fun t => jwSite A t.op t.i n).prod = if fermiProd l then A.F n else 1
  | [], _ => by simp [fermiProd]
  | t :: l, h => by
    rw [List.map_cons, List.prod_cons, right_prod A n l fun u hu => h u (by simp [hu]), jwSite,
      if_pos (h t (by simp))]
    by_cases h1 : fermiName t.op = true <;> cases h2 : fermiProd l <;> simp [fermiProd, h1, h2, A.F_F]

omit [DecidablePred P] in
theorem left_prod (A : Fermi ops P) (n : Fin N) : ∀ l : List SiteTerm, (∀ t ∈ l, t.i < ((n.val + 1 : Nat) : Int)) →
    (l.map fun t => jwSite A t.op t.i n).prod = 1
  | [], _ => by simp
  | t :: l, h => by
    have := h t (by simp)
    rw [List.map_cons, List.prod_cons, left_prod A n l fun u hu => h u (by simp [hu]), jwSite, if_neg (by omega),
      if_neg (by omega), one_mul]

theorem decompose_append (n : Int) (l : List SiteTerm) :
    (decomposeTerm n l).1 ++ ((decomposeTerm n l).2.1 ++ (decomposeTerm n l).2.2) = l := by
  simp [decomposeTerm]

theorem mem_takeWhile_of {X : Type*} {p : X → Bool} {l : List X} {x : X} (h : x ∈ l.takeWhile p) : p x = true :=
  List.all_eq_true.1 List.all_takeWhile x h

theorem decompose_left {n : Int} {l : List SiteTerm} : ∀ t ∈ (decomposeTerm n l).1, t.i < n := by
  intro t ht
  have := mem_takeWhile_of ht
  simp at this
  exact this

theorem dropWhile_ge {p : Int → Prop} [DecidablePred p] (hp : ∀ a b, a ≤ b → p b → p a) :
    ∀ {l : List SiteTerm}, Sorted l → ∀ t ∈ l.dropWhile (fun t => decide (p t.i)), ¬p t.i
  | [], _, t, ht => by simp at ht
  | u :: l, hs, t, ht => by
    rw [Sorted, List.pairwise_cons] at hs
    by_cases hu : p u.i
    · rw [List.dropWhile_cons_of_pos (by simpa using hu)] at ht
      exact dropWhile_ge hp hs.2 t ht
    · rw [List.dropWhile_cons_of_neg (by simpa using hu)] at ht
      rcases List.mem_cons.1 ht with rfl | h
      · exact hu
      · exact fun h' => hu (hp _ _ (hs.1 t h) h')

theorem Sorted.dropWhile {l : List SiteTerm} (hs : Sorted l) (p : SiteTerm → Bool) : Sorted (l.dropWhile p) :=
  List.Pairwise.sublist (List.dropWhile_sublist p) hs

theorem decompose_rest {n : Int} {l : List SiteTerm} (hs : Sorted l) : ∀ t ∈ l.dropWhile (fun t => ¬t.i ≥ n), n ≤ t.i := by
  intro t ht
  have := dropWhile_ge (p := fun i => ¬i ≥ n) (fun a b h1 h2 => by omega) hs t (by simpa using ht)
  omega

theorem decompose_onsite {n : Int} {l : List SiteTerm} (hs : Sorted l) : ∀ t ∈ (decomposeTerm n l).2.1, t.i = n := by
  intro t ht
  have h1 := mem_takeWhile_of ht
  have h2 := decompose_rest hs t ((List.takeWhile_sublist _).subset ht)
  simp at h1
  omega

theorem decompose_right {n : Int} {l : List SiteTerm} (hs : Sorted l) : ∀ t ∈ (decomposeTerm n l).2.2, n < t.i := by
  intro t ht
  have := dropWhile_ge (p := fun i => ¬i > n) (fun a b h1 h2 => by omega) (hs.dropWhile fun t => decide ¬t.i ≥ n) t
    (by simpa [decomposeTerm] using ht)
  omega

theorem fermiProd_append (a b : List SiteTerm) : fermiProd (a ++ b) = (fermiProd a != fermiProd b) := by
  induction a with
  | nil => simp [fermiProd]
  | cons t a ih =>
    by_cases h : fermiName t.op = true <;> simp [fermiProd, h, ih]

/-- What `partitionHTerms` calls for a name and the site `n+1`. -/
def at' (ops : Name → ∀ n : Fin N, Option (Matrix (Fin (D n)) (Fin (D n)) K)) (n : Fin N) (a : Name) (_ : Int) :
    Option (Matrix (Fin (D n)) (Fin (D n)) K) := ops a n

theorem computeProd_eq {R : Type*} [Ring R] (op : Name → Int → Option R) (n : Int) :
    ∀ {p : List SiteTerm} (v : SiteTerm → R), p ≠ [] → (∀ t ∈ p, t.i = n ∧ op t.op n = some (v t)) →
      computeProd op p = .ok (p.map v).prod
  | [], _, h, _ => absurd rfl h
  | t :: p, v, _, h => by
    have ht := h t (by simp)
    rw [computeProd, ht.1]
    simp only [ht.2]
    have : ∀ (l : List SiteTerm) (x : R), (∀ t ∈ l, t.i = n ∧ op t.op n = some (v t)) →
        Res.foldM (prodStep op n) x l = .ok (x * (l.map v).prod) := by
      intro l
      induction l with
      | nil => simp
      | cons s l ih =>
        intro x hx
        have hs := hx s (by simp)
        rw [Res.foldM_cons]
        simp only [prodStep, hs.1, hs.2, ne_eq, not_true_eq_false, if_false, Res.bind_ok]
        rw [ih _ fun u hu => hx u (by simp [hu])]
        simp [mul_assoc]
    rw [this p _ fun u hu => h u (by simp [hu])]
    simp

/-- The operators put on one site are the factor of the product of the operators on this site. -/
theorem onsite_ok (A : Fermi ops P) {l : List SiteTerm} (hs : Sorted l)
    (hl : ∀ t ∈ l, P t.op ∧ 1 ≤ t.i ∧ t.i ≤ N ∧ ∀ n : Fin N, ((n.val + 1 : Nat) : Int) = t.i → (ops t.op n).isSome)
    (he : fermiProd l = false) (n : Fin N) :
    ((onsiteOps ((n.val + 1 : Nat) : Int) l).bind (computeProd (at' ops n))) =
      .ok (l.map fun t => jwSite A t.op t.i n).prod := by
  have ha := decompose_append ((n.val + 1 : Nat) : Int) l
  have h1 := decompose_left (n := ((n.val + 1 : Nat) : Int)) (l := l)
  have h2 := decompose_onsite (n := ((n.val + 1 : Nat) : Int)) hs
  have h3 := decompose_right (n := ((n.val + 1 : Nat) : Int)) hs
  unfold onsiteOps
  generalize decomposeTerm ((n.val + 1 : Nat) : Int) l = d at ha h1 h2 h3 ⊢
  obtain ⟨dl, dm, dr⟩ := d
  simp only at ha h1 h2 h3 ⊢
  have hp : (l.map fun t => jwSite A t.op t.i n).prod =
      (dm.map fun t => jwSite A t.op t.i n).prod * if fermiProd dr then A.F n else 1 := by
    rw [← ha, List.map_append, List.map_append, List.prod_append, List.prod_append, left_prod A n dl h1,
      right_prod A n dr h3, one_mul]
  have hpar : (fermiProd dl != (fermiProd dm != fermiProd dr)) = false := by
    rw [← fermiProd_append, ← fermiProd_append, ha, he]
  rw [hp]
  by_cases hm : dm = []
  · subst hm
    rw [if_pos rfl]
    cases hL : fermiProd dl <;> cases hR : fermiProd dr <;> simp [hL, hR, fermiProd] at hpar <;>
      simp [computeProd, at', A.F_op, A.Id_op]
  · rw [if_neg hm]
    obtain ⟨t, ts, rfl⟩ := List.exists_cons_of_ne_nil hm
    have hsite : ∀ u ∈ t :: ts, u.i = t.i := fun u hu => (h2 u hu).trans (h2 t (by simp)).symm
    have hany : (t :: ts).any (fun st => decide (st.i ≠ t.i)) = false := by
      simp only [List.any_eq_false, decide_eq_true_eq, not_not]
      exact hsite
    have hti : ((n.val + 1 : Nat) : Int) = t.i := (h2 t (by simp)).symm
    have hdef : ∀ u ∈ t :: ts, P u.op ∧ ops u.op n = some ((ops u.op n).getD 0) ∧
        jwSite A u.op u.i n = (ops u.op n).getD 0 := by
      intro u hu
      have hu' : u ∈ l := by rw [← ha]; simp at hu ⊢; tauto
      obtain ⟨q1, _, _, q2⟩ := hl u hu'
      refine ⟨q1, ?_, ?_⟩
      · have := q2 n (h2 u hu).symm
        cases hx : ops u.op n with
        | none => simp [hx] at this
        | some x => simp
      · rw [jwSite, if_neg (by rw [h2 u hu]; omega), if_pos (h2 u hu).symm]
    have hmap : ((t :: ts).map fun u => jwSite A u.op u.i n) = (t :: ts).map fun u => (ops u.op n).getD 0 :=
      List.map_congr_left fun u hu => (hdef u hu).2.2
    rw [hmap, rewriteFermionic, hany]
    simp only [Bool.false_eq_true, if_false, Res.bind_ok]
    -- the operators after the rewriting have the same matrices
    have hre : ∀ p : List SiteTerm, p = (t :: ts) ∨ p = (t :: ts).map (fun st => if fermiName st.op then
        ⟨fermionicTerm st.op, st.i⟩ else st) →
        p ≠ [] ∧ (∀ u ∈ p, u.i = t.i ∧ at' ops n u.op t.i = some ((ops u.op n).getD 0)) ∧
          (p.map fun u => (ops u.op n).getD 0) = (t :: ts).map fun u => (ops u.op n).getD 0 := by
      rintro p (rfl | rfl)
      · exact ⟨by simp, fun u hu => ⟨hsite u hu, (hdef u hu).2.1⟩, rfl⟩
      · have hh : ∀ u ∈ t :: ts, ops (if fermiName u.op = true then (⟨fermionicTerm u.op, u.i⟩ : SiteTerm) else u).op n =
            ops u.op n := by
          intro u hu
          split
          · rename_i hf
            exact A.rewrite u.op n (hdef u hu).1 hf
          · rfl
        refine ⟨by simp, fun u hu => ?_, ?_⟩
        · obtain ⟨v, hv, rfl⟩ := List.mem_map.1 hu
          refine ⟨?_, ?_⟩
          · rw [← hsite v hv]
            split <;> rfl
          · rw [at', hh v hv]
            exact (hdef v hv).2.1
        · rw [List.map_map]
          refine List.map_congr_left fun u hu => ?_
          rw [Function.comp_apply, hh u hu]
    obtain ⟨r1, r2, r3⟩ := hre (if fermiProd (t :: ts) = true then (t :: ts).map (fun st => if fermiName st.op = true then
        ⟨fermionicTerm st.op, st.i⟩ else st) else t :: ts) (by
      split
      · exact .inr rfl
      · exact .inl rfl)
    generalize (if fermiProd (t :: ts) = true then (t :: ts).map (fun st => if fermiName st.op = true then
        (⟨fermionicTerm st.op, st.i⟩ : SiteTerm) else st) else t :: ts) = p at r1 r2 r3 ⊢
    have hF : ∀ b : Bool, computeProd (at' ops n) (if b then p ++ [⟨nF, t.i⟩] else p) =
        .ok (((t :: ts).map fun u => (ops u.op n).getD 0).prod * if b then A.F n else 1) := by
      intro b
      cases b
      · simp only [Bool.false_eq_true, if_false, mul_one]
        rw [computeProd_eq (at' ops n) t.i (fun u => (ops u.op n).getD 0) r1 r2, r3]
      · simp only [if_true]
        rw [computeProd_eq (at' ops n) t.i (fun u => (ops u.op n).getD 0) (by simp), List.map_append, r3]
        · rw [List.prod_append]
          simp [A.F_op]
        · intro u hu
          rcases List.mem_append.1 hu with h | h
          · exact r2 u h
          · simp only [List.mem_singleton] at h
            subst h
            exact ⟨rfl, by simp [at', A.F_op]⟩
    rw [hF]
    congr 3
    cases hL : fermiProd dl <;> cases hM : fermiProd (t :: ts) <;> cases hR : fermiProd dr <;>
      simp [hL, hM, hR] at hpar ⊢

end Local

/-- **C51**: For every term with its operators in the order of their sites and of even parity, the conversion puts an
operator on each site, and the operator on the chain with these local operators is the product of the operators of the
term, where those of fermions anticommute (`jw_graded`). -/
theorem C51_local_operators (A : Fermi ops P) (l : List SiteTerm) (hs : l.Pairwise fun a b => a.i ≤ b.i)
    (hl : ∀ t ∈ l, P t.op ∧ 1 ≤ t.i ∧ t.i ≤ N ∧ ∀ n : Fin N, ((n.val + 1 : Nat) : Int) = t.i → (ops t.op n).isSome)
    (he : fermiProd l = false) :
    ∃ L : ∀ n : Fin N, Matrix (Fin (D n)) (Fin (D n)) K,
      (∀ n : Fin N, ((onsiteOps ((n.val + 1 : Nat) : Int) l).bind (computeProd (at' ops n))) = .ok (L n)) ∧
      kron L = (l.map fun t => jw A t.op t.i).prod :=
  ⟨fun n => (l.map fun t => jwSite A t.op t.i n).prod, onsite_ok A hs hl he,
    (prodOps_jw A l fun t ht => ⟨(hl t ht).1, (hl t ht).2.1, (hl t ht).2.2.1⟩).symm⟩

/-- **C51** from the entry of the term on: the local operators times the stored coefficient are the product of the operators
in the order in which they were entered. -/
theorem C51_entered (A : Fermi ops P) (es : List (SiteTerm × K))
    (hl : ∀ e ∈ es, P e.1.op ∧ 1 ≤ e.1.i ∧ e.1.i ≤ N ∧
      ∀ n : Fin N, ((n.val + 1 : Nat) : Int) = e.1.i → (ops e.1.op n).isSome)
    (he : (es.filter fun e => fermiName e.1.op).length % 2 = 0) :
    ∃ L : ∀ n : Fin N, Matrix (Fin (D n)) (Fin (D n)) K,
      (∀ n : Fin N, ((onsiteOps ((n.val + 1 : Nat) : Int) (entered es).ops).bind (computeProd (at' ops n))) = .ok (L n)) ∧
      (entered es).coef • kron L = (es.map (·.2)).prod • (es.map fun e => jw A e.1.op e.1.i).prod := by
  obtain ⟨h1, h2, h3⟩ := C48_entry_order (jw A) (jw_graded A) es
  have hp : (entered es).ops.Perm (es.map (·.1)) := by
    clear h1 h2 h3 hl he
    induction es using List.reverseRecOn with
    | nil => exact .refl _
    | append_singleton es e ih =>
      rw [entered_snoc, add_ops, List.map_append]
      refine (List.perm_middle).trans ?_
      rw [left_right]
      exact (ih.cons _).trans (List.perm_append_singleton _ _).symm
  have hpar : ∀ l : List SiteTerm, fermiProd l = decide ((l.filter fun t => fermiName t.op).length % 2 = 1) := by
    intro l
    induction l with
    | nil => rfl
    | cons t l ih =>
      by_cases h : fermiName t.op = true
      · simp only [fermiProd, h, if_true, ih, List.filter_cons, List.length_cons]
        rcases Nat.mod_two_eq_zero_or_one (l.filter fun t => fermiName t.op).length with h' | h' <;>
          simp [h', Nat.add_mod]
      · simp [fermiProd, h, ih]
  have he' : fermiProd (entered es).ops = false := by
    rw [hpar, (hp.filter _).length_eq, List.filter_map, List.length_map]
    simp only [Function.comp_def]
    simp [he]
  obtain ⟨L, e1, e2⟩ := C51_local_operators A (entered es).ops h2 (fun t ht => by
    obtain ⟨e, he, rfl⟩ := List.mem_map.1 (hp.mem_iff.1 ht)
    exact hl e he) he'
  refine ⟨L, e1, ?_⟩
  rw [e2, ← h1]
  rfl

end Verif.AutoMPO
