import Verif.Tensor.ContractLayout
import Mathlib.Algebra.BigOperators.Intervals

/-!
# C18, C19: dense contraction
-/

namespace Verif.Tensor

open Range Permutation Finset

section
variable {K : Type*} [CommRing K]

/-- Sum of `F` over all values of the labels `cs` (each below its extent), the other labels keeping
the values `ρ` gives them. -/
def sumOver {X : Type*} [DecidableEq X] (ext : X → Nat) : List X → ((X → Nat) → K) → (X → Nat) → K
  | [], F, ρ => F ρ
  | x :: cs, F, ρ => ∑ v ∈ range (ext x), sumOver ext cs F (Function.update ρ x v)

theorem sumOver_perm {X : Type*} [DecidableEq X] (ext : X → Nat) {cs cs' : List X} (h : cs.Perm cs')
    (hnd : cs.Nodup) (F : (X → Nat) → K) (ρ : X → Nat) : sumOver ext cs F ρ = sumOver ext cs' F ρ := by
  induction h generalizing ρ with
  | nil => rfl
  | cons x _ ih =>
    simp only [sumOver]
    exact sum_congr rfl fun v _ => ih (List.nodup_cons.1 hnd).2 _
  | swap x y l =>
    simp only [sumOver]
    rw [sum_comm]
    refine sum_congr rfl fun v _ => sum_congr rfl fun w _ => ?_
    rw [Function.update_comm]
    intro hxy
    rw [hxy] at hnd
    simp at hnd
  | trans h1 _ ih1 ih2 => rw [ih1 hnd, ih2 (h1.nodup_iff.1 hnd)]

theorem sum_range_mul (d P : Nat) (g : Nat → K) :
    ∑ l ∈ range (d * P), g l = ∑ v ∈ range d, ∑ q ∈ range P, g (v + d * q) := by
  rw [sum_comm]
  induction P with
  | zero => simp
  | succ P ih =>
    rw [Nat.mul_succ, sum_range_add, sum_range_succ, ih]
    congr 1
    exact sum_congr rfl fun v _ => by rw [Nat.add_comm]

theorem sum_rank (ext : Int → Nat) (cs : List Int) (hnd : cs.Nodup) (g : Nat → K)
    (F : (Int → Nat) → K) (ρ : Int → Nat)
    (h : ∀ σ : Int → Nat, (∀ x ∈ cs, σ x < ext x) → (∀ x, x ∉ cs → σ x = ρ x) →
      g (rank (cs.map ext) (cs.map σ)) = F σ) :
    ∑ l ∈ range (cs.map ext).prod, g l = sumOver ext cs F ρ := by
  induction cs generalizing g ρ with
  | nil =>
    simp only [List.map_nil, List.prod_nil, range_one, sum_singleton, sumOver]
    exact h ρ (by simp) (by simp)
  | cons x cs ih =>
    obtain ⟨hx, hnd'⟩ := List.nodup_cons.1 hnd
    simp only [List.map_cons, List.prod_cons, sumOver]
    rw [sum_range_mul]
    refine sum_congr rfl fun v hv => ?_
    apply ih hnd'
    intro σ h1 h2
    have hσx : σ x = v := by rw [h2 x hx, Function.update_self]
    have := h σ (by
      intro y hy
      rcases List.mem_cons.1 hy with rfl | hy
      · rw [hσx]; exact mem_range.1 hv
      · exact h1 y hy) (by
      intro y hy
      simp only [List.mem_cons, not_or] at hy
      rw [h2 y hy.2, Function.update_of_ne hy.1])
    rw [← this]
    simp only [List.map_cons, rank, hσx]

end

theorem rank_append (d e i j : List Nat) (h : i.length = d.length) :
    rank (d ++ e) (i ++ j) = rank d i + d.prod * rank e j := by
  induction d generalizing i with
  | nil =>
    have : i = [] := by simpa using h
    subst this
    simp [rank]
  | cons a d ih =>
    cases i with
    | nil => simp at h
    | cons b i =>
      simp only [List.cons_append, rank, List.prod_cons]
      rw [ih i (by simpa using h)]; ring

section
variable {K : Type*} [CommRing K] [DecidableEq K]

/-- position of the values of labels `xs` in a column-major tensor with these labels -/
abbrev pos (ext : Int → Nat) (xs : List Int) (ρ : Int → Nat) : Nat := rank (xs.map ext) (xs.map ρ)

theorem pos_append (ext : Int → Nat) (xs ys : List Int) (ρ : Int → Nat) :
    pos ext (xs ++ ys) ρ = pos ext xs ρ + (xs.map ext).prod * pos ext ys ρ := by
  unfold pos
  rw [List.map_append, List.map_append, rank_append _ _ _ _ (by simp)]

theorem pos_lt {ext : Int → Nat} {xs : List Int} {ρ : Int → Nat} (h : ∀ x ∈ xs, ρ x < ext x) :
    pos ext xs ρ < (xs.map ext).prod := rank_lt (valid_map h)

theorem permCopy_spec (ext : Int → Nat) {P : Permutation} {xs ys : List Int}
    (h : LabelPerm P xs ys) (hpos : ∀ x ∈ ys, 0 < ext x)
    (hmax : ((ys.map ext).prod : Int) ≤ offMax) (fuel : Nat) (hf : (ys.map ext).prod < fuel)
    (m mt : Int → K) :
    ∃ m', permCopy fuel (init (xs.map ext)) P (init (ys.map ext)) m mt = some (.ok m') ∧
      (∀ ρ : Int → Nat, (∀ x ∈ ys, ρ x < ext x) → m' (pos ext ys ρ : Nat) = m (pos ext xs ρ : Nat)) ∧
      (∀ a : Int, (a < 0 ∨ ((ys.map ext).prod : Int) ≤ a) → m' a = mt a) := by
  obtain ⟨V, hV, m', hm', h1, h2⟩ := runTransform_perm (fun (b : K) (_ : K) => b) ext h hpos hmax fuel hf m mt
  refine ⟨m', ?_, h1, h2⟩
  unfold permCopy
  rw [hV]
  exact hm'

theorem mk2_contig (m n : Nat) : (MatRange.mk2 m n).isContiguous = true := by
  simp [MatRange.isContiguous, MatRange.isNormal, MatRange.mk2]

theorem mk2t_contig (m n : Nat) : (MatRange.mk2 m n).transpose.isContiguous = true := by
  simp [MatRange.isContiguous, MatRange.isTransposed, MatRange.mk2, MatRange.transpose]

theorem mk2_at (m n i j : Nat) : (MatRange.mk2 m n).at_ i j = ((i + m * j : Nat) : Int) := by
  simp only [MatRange.at_, MatRange.mk2]; congr 1; ring

theorem mk2t_at (m n i j : Nat) : (MatRange.mk2 m n).transpose.at_ i j = ((j + m * i : Nat) : Int) := by
  simp only [MatRange.at_, MatRange.mk2, MatRange.transpose]; congr 1; ring

/-- Effect of `contract(CProps,...)` given the layout. -/
theorem contractP_spec {p : CProps} {ai bi ci : List Int} (hl : LabelsOK ai bi ci) (ext : Int → Nat)
    {cc uA uB : List Int} (L : Layout p ai bi ci ext cc uA uB)
    (hpos : ∀ x, x ∈ ai ∨ x ∈ bi → 0 < ext x)
    (hma : ((ai.map ext).prod : Int) ≤ offMax) (hmb : ((bi.map ext).prod : Int) ≤ offMax)
    (hmc : ((ci.map ext).prod : Int) ≤ offMax) (fuel : Nat) (hfa : (ai.map ext).prod < fuel)
    (hfb : (bi.map ext).prod < fuel) (hfc : (ci.map ext).prod < fuel) (A B C junk : Int → K)
    (alpha beta : K) :
    ∃ m, contractP fuel p (init (ai.map ext)) (init (bi.map ext)) (init (ci.map ext)) A B C junk alpha
        beta = some (.ok m) ∧
      (∀ ρ : Int → Nat, (∀ x, x ∈ ai ∨ x ∈ bi → ρ x < ext x) →
        ∃ old, (p.permuteC = false → old = C (pos ext ci ρ : Nat)) ∧
        m (pos ext ci ρ : Nat) = alpha * sumOver ext (ai.filter (· ∈ bi))
          (fun σ => A (pos ext ai σ : Nat) * B (pos ext bi σ : Nat)) ρ + beta * old) ∧
      (∀ a : Int, (a < 0 ∨ ((ci.map ext).prod : Int) ≤ a) → m a = C a) := by
  have hinA : ∀ x ∈ cc ++ uA, x ∈ ai := fun x hx => L.permA.mem_iff.1 hx
  have hinB : ∀ x ∈ cc ++ uB, x ∈ bi := fun x hx => L.permB.mem_iff.1 hx
  have hinC : ∀ x ∈ ci, x ∈ ai ∨ x ∈ bi := by
    intro x hx
    by_cases h : x ∈ ai
    · exact Or.inl h
    · exact Or.inr (by by_contra hb; exact h ((hl.c x hx).2 hb))
  have hprodA : ((cc ++ uA).map ext).prod = (ai.map ext).prod := (L.permA.map ext).prod_eq
  have hprodB : ((cc ++ uB).map ext).prod = (bi.map ext).prod := (L.permB.map ext).prod_eq
  have hprodC : ((uA ++ uB).map ext).prod = (ci.map ext).prod := (L.permC.map ext).prod_eq
  -- A as a matrix
  obtain ⟨Ar, Am, hA, hAc, hArn, hAcn, hAv⟩ : ∃ (Ar : MatRange) (Am : Int → K),
      matA fuel p (init (ai.map ext)) A junk = some (.ok (Ar, Am)) ∧
      Ar.isContiguous = true ∧ Ar.rn = p.dleft ∧ Ar.cn = p.dmid ∧
      ∀ σ : Int → Nat, (∀ x ∈ ai, σ x < ext x) →
        Am (Ar.at_ (pos ext uA σ) (pos ext cc σ)) = A (pos ext ai σ : Nat) := by
    rcases L.A with ⟨h1, h2, h3⟩ | ⟨h1, ⟨h2, h3⟩ | ⟨h2, h3⟩⟩
    · obtain ⟨m', hm', hm1, _⟩ := permCopy_spec ext h2 (fun x hx => hpos x (Or.inl (hinA x hx)))
        (by rw [hprodA]; exact hma) fuel (by rw [hprodA]; exact hfa) A junk
      refine ⟨(MatRange.mk2 p.dmid p.dleft).transpose, m', ?_, mk2t_contig _ _, rfl, rfl, ?_⟩
      · unfold matA; rw [if_pos h1, h3, hm']; rfl
      · intro σ hσ
        rw [mk2t_at, ← hm1 σ (fun x hx => hσ x (hinA x hx)), pos_append, L.dmid]
    · refine ⟨(MatRange.mk2 p.dmid p.dleft).transpose, A, ?_, mk2t_contig _ _, rfl, rfl, ?_⟩
      · unfold matA; rw [h1, h2]; rfl
      · intro σ hσ
        rw [mk2t_at, h3, pos_append, L.dmid]
    · refine ⟨MatRange.mk2 p.dleft p.dmid, A, ?_, mk2_contig _ _, rfl, rfl, ?_⟩
      · unfold matA; rw [h1, h2]; rfl
      · intro σ hσ
        rw [mk2_at, h3, pos_append, L.dleft]
  obtain ⟨Br, Bm, hB, hBc, hBrn, hBcn, hBv⟩ : ∃ (Br : MatRange) (Bm : Int → K),
      matB fuel p (init (bi.map ext)) B junk = some (.ok (Br, Bm)) ∧
      Br.isContiguous = true ∧ Br.rn = p.dmid ∧ Br.cn = p.dright ∧
      ∀ σ : Int → Nat, (∀ x ∈ bi, σ x < ext x) →
        Bm (Br.at_ (pos ext cc σ) (pos ext uB σ)) = B (pos ext bi σ : Nat) := by
    rcases L.B with ⟨h1, h2, h3⟩ | ⟨h1, ⟨h2, h3⟩ | ⟨h2, h3⟩⟩
    · obtain ⟨m', hm', hm1, _⟩ := permCopy_spec ext h2 (fun x hx => hpos x (Or.inr (hinB x hx)))
        (by rw [hprodB]; exact hmb) fuel (by rw [hprodB]; exact hfb) B junk
      refine ⟨MatRange.mk2 p.dmid p.dright, m', ?_, mk2_contig _ _, rfl, rfl, ?_⟩
      · unfold matB; rw [if_pos h1, h3, hm']; rfl
      · intro σ hσ
        rw [mk2_at, ← hm1 σ (fun x hx => hσ x (hinB x hx)), pos_append, L.dmid]
    · refine ⟨MatRange.mk2 p.dmid p.dright, B, ?_, mk2_contig _ _, rfl, rfl, ?_⟩
      · unfold matB; rw [h1, h2]; rfl
      · intro σ hσ
        rw [mk2_at, h3, pos_append, L.dmid]
    · refine ⟨(MatRange.mk2 p.dright p.dmid).transpose, B, ?_, mk2t_contig _ _, rfl, rfl, ?_⟩
      · unfold matB; rw [h1, h2]; rfl
      · intro σ hσ
        rw [mk2t_at, h3, pos_append, L.dright]
  -- the matrix product is the contraction
  have hnda : (cc ++ uA).Nodup := L.permA.nodup_iff.2 hl.nda
  have hndb : (cc ++ uB).Nodup := L.permB.nodup_iff.2 hl.ndb
  have hccp : cc.Perm (ai.filter (· ∈ bi)) := by
    rw [List.perm_ext_iff_of_nodup (List.nodup_append.1 hnda).1 (hl.nda.filter _)]
    intro x
    rw [List.mem_filter]
    simp only [decide_eq_true_eq]
    constructor
    · intro hx
      exact ⟨hinA x (by simp [hx]), hinB x (by simp [hx])⟩
    · rintro ⟨h1, h2⟩
      have h3 := L.permA.mem_iff.2 h1
      rw [List.mem_append] at h3
      rcases h3 with h3 | h3
      · exact h3
      · have hc : x ∈ ci := L.permC.mem_iff.1 (by simp [h3])
        exact absurd h2 ((hl.c x hc).1 h1)
  have hdot : ∀ ρ : Int → Nat, (∀ x, x ∈ ai ∨ x ∈ bi → ρ x < ext x) →
      ∑ l ∈ range Ar.cn, Am (Ar.at_ (pos ext uA ρ) l) * Bm (Br.at_ l (pos ext uB ρ)) =
      sumOver ext (ai.filter (· ∈ bi))
          (fun σ => A (pos ext ai σ : Nat) * B (pos ext bi σ : Nat)) ρ := by
    intro ρ hρ
    rw [← sumOver_perm ext hccp (List.nodup_append.1 hnda).1, hAcn, L.dmid]
    apply sum_rank ext cc (List.nodup_append.1 hnda).1
    intro σ h1 h2
    have hσ : ∀ x, x ∈ ai ∨ x ∈ bi → σ x < ext x := by
      intro x hx
      by_cases hc : x ∈ cc
      · exact h1 x hc
      · rw [h2 x hc]; exact hρ x hx
    have eA : pos ext uA ρ = pos ext uA σ := by
      unfold pos
      congr 1
      apply List.map_congr_left
      intro x hx
      exact (h2 x (fun hc => (List.nodup_append.1 hnda).2.2 x hc x hx rfl)).symm
    have eB : pos ext uB ρ = pos ext uB σ := by
      unfold pos
      congr 1
      apply List.map_congr_left
      intro x hx
      exact (h2 x (fun hc => (List.nodup_append.1 hndb).2.2 x hc x hx rfl)).symm
    show Am (Ar.at_ (pos ext uA ρ) (pos ext cc σ)) * Bm (Br.at_ (pos ext cc σ) (pos ext uB ρ)) = _
    rw [eA, eB, hAv σ (fun x hx => hσ x (Or.inl hx)), hBv σ (fun x hx => hσ x (Or.inr hx))]
  have huA : ∀ ρ : Int → Nat, (∀ x, x ∈ ai ∨ x ∈ bi → ρ x < ext x) → pos ext uA ρ < p.dleft := by
    intro ρ hρ
    rw [L.dleft]; exact pos_lt (fun x hx => hρ x (Or.inl (hinA x (by simp [hx]))))
  have huB : ∀ ρ : Int → Nat, (∀ x, x ∈ ai ∨ x ∈ bi → ρ x < ext x) → pos ext uB ρ < p.dright := by
    intro ρ hρ
    rw [L.dright]; exact pos_lt (fun x hx => hρ x (Or.inr (hinB x (by simp [hx]))))
  unfold contractP
  rw [hA]
  simp only [Run.bind]
  rw [hB]
  dsimp only
  rcases L.C with ⟨h1, h2, h3, _⟩ | ⟨h1, ⟨h2, h3⟩ | ⟨h2, h3⟩⟩
  · rw [if_pos h1, h3]
    obtain ⟨hg1, _⟩ := C20_gemm Ar Br (MatRange.mk2 Ar.rn Br.cn) hAc hBc (mk2_contig _ _)
      (by rw [hAcn, hBrn]) rfl rfl Am Bm junk alpha beta
    obtain ⟨m', hm', hm1, hm2⟩ := permCopy_spec ext h2 (fun x hx => hpos x (hinC x hx)) hmc fuel hfc
      (gemm Ar Am Br Bm (MatRange.mk2 Ar.rn Br.cn) junk alpha beta) C
    refine ⟨m', hm', ?_, hm2⟩
    intro ρ hρ
    refine ⟨junk (pos ext (uA ++ uB) ρ : Nat), fun hf => by rw [h1] at hf; exact absurd hf (by simp), ?_⟩
    rw [hm1 ρ (fun x hx => hρ x (hinC x hx)), pos_append, ← L.dleft, ← hArn, ← mk2_at Ar.rn Br.cn,
      hg1 _ _ (by show _ < Ar.rn; rw [hArn]; exact huA ρ hρ) (by show _ < Br.cn; rw [hBcn]; exact huB ρ hρ),
      hdot ρ hρ]
  · obtain ⟨hg1, hg2⟩ := C20_gemm Ar Br (MatRange.mk2 Br.cn Ar.rn).transpose hAc hBc (mk2t_contig _ _)
      (by rw [hAcn, hBrn]) rfl rfl Am Bm C alpha beta
    refine ⟨gemm Ar Am Br Bm (MatRange.mk2 Br.cn Ar.rn).transpose C alpha beta, by rw [h1, h2]; rfl, ?_, ?_⟩
    · intro ρ hρ
      refine ⟨C (pos ext ci ρ : Nat), fun _ => rfl, ?_⟩
      rw [h3, pos_append, ← L.dright, ← hBcn, ← mk2t_at Br.cn Ar.rn,
        hg1 _ _ (by show _ < Ar.rn; rw [hArn]; exact huA ρ hρ) (by show _ < Br.cn; rw [hBcn]; exact huB ρ hρ),
        hdot ρ hρ]
    · intro a ha
      apply hg2
      show a < 0 ∨ ((Ar.rn * Br.cn : Nat) : Int) ≤ a
      rw [hArn, hBcn, L.dleft, L.dright, ← List.prod_append, ← List.map_append, hprodC]
      exact ha
  · obtain ⟨hg1, hg2⟩ := C20_gemm Ar Br (MatRange.mk2 Ar.rn Br.cn) hAc hBc (mk2_contig _ _)
      (by rw [hAcn, hBrn]) rfl rfl Am Bm C alpha beta
    refine ⟨gemm Ar Am Br Bm (MatRange.mk2 Ar.rn Br.cn) C alpha beta, by rw [h1, h2]; rfl, ?_, ?_⟩
    · intro ρ hρ
      refine ⟨C (pos ext ci ρ : Nat), fun _ => rfl, ?_⟩
      rw [h3, pos_append, ← L.dleft, ← hArn, ← mk2_at Ar.rn Br.cn,
        hg1 _ _ (by show _ < Ar.rn; rw [hArn]; exact huA ρ hρ) (by show _ < Br.cn; rw [hBcn]; exact huB ρ hρ),
        hdot ρ hρ]
    · intro a ha
      apply hg2
      show a < 0 ∨ ((Ar.rn * Br.cn : Nat) : Int) ≤ a
      rw [hArn, hBcn, L.dleft, L.dright, ← List.prod_append, ← List.map_append, hprodC]
      exact ha

theorem contractScalar_spec {xs ci : List Int} (h : xs.Perm ci) (hnd : xs.Nodup) (ext : Int → Nat)
    (hpos : ∀ x ∈ xs, 0 < ext x) (hmc : ((ci.map ext).prod : Int) ≤ offMax) (fuel : Nat)
    (hfc : (ci.map ext).prod < fuel) (a : K) (B C : Int → K) (alpha beta : K) :
    ∃ m, contractScalar fuel a (init (xs.map ext)) xs (init (ci.map ext)) ci B C alpha beta =
        some (.ok m) ∧
      (∀ ρ : Int → Nat, (∀ x ∈ xs, ρ x < ext x) →
        m (pos ext ci ρ : Nat) = alpha * (a * B (pos ext xs ρ : Nat)) + beta * C (pos ext ci ρ : Nat)) ∧
      (∀ x : Int, (x < 0 ∨ ((ci.map ext).prod : Int) ≤ x) → m x = C x) := by
  obtain ⟨P, hP, hP1, hP2, hP3⟩ := C16_calcPerm xs ci h hnd
  have hL : LabelPerm P xs ci := ⟨hP1, hP2, h.length_eq, hP3⟩
  have hpos' : ∀ x ∈ ci, 0 < ext x := fun x hx => hpos x (h.mem_iff.2 hx)
  unfold contractScalar
  rw [hP]
  by_cases hb : beta = 0
  · obtain ⟨V, hV, m, hm, h1, h2⟩ := runTransform_perm (fun (b : K) (_ : K) => alpha * a * b) ext hL
      hpos' hmc fuel hfc B C
    refine ⟨m, ?_, ?_, h2⟩
    · simp only [hV, if_pos hb]; exact hm
    · intro ρ hρ
      show m (rank _ _ : Nat) = _
      rw [h1 ρ (fun x hx => hρ x (h.mem_iff.2 hx)), hb]; ring
  · obtain ⟨V, hV, m, hm, h1, h2⟩ := runTransform_perm (fun (b : K) (c : K) => alpha * a * b + beta * c)
      ext hL hpos' hmc fuel hfc B C
    refine ⟨m, ?_, ?_, h2⟩
    · simp only [hV, if_neg hb]; exact hm
    · intro ρ hρ
      show m (rank _ _ : Nat) = _
      rw [h1 ρ (fun x hx => hρ x (h.mem_iff.2 hx))]; ring

/-- The general effect of `contract`; `old` is the value accumulated onto. It is the former element
of `C` when one of the operands is a scalar, or when the labels of `C` are those of `A` followed by
those of `B`, in their orders. -/
theorem contract_spec {ai bi ci : List Int} (hl : LabelsOK ai bi ci) (ext : Int → Nat)
    (hpos : ∀ x, x ∈ ai ∨ x ∈ bi → 0 < ext x)
    (hma : ((ai.map ext).prod : Int) ≤ offMax) (hmb : ((bi.map ext).prod : Int) ≤ offMax)
    (hmc : ((ci.map ext).prod : Int) ≤ offMax) (fuel : Nat) (hfa : (ai.map ext).prod < fuel)
    (hfb : (bi.map ext).prod < fuel) (hfc : (ci.map ext).prod < fuel) (A B C junk : Int → K)
    (alpha beta : K) :
    ∃ m, contract fuel (init (ai.map ext)) ai (init (bi.map ext)) bi (init (ci.map ext)) ci A B C junk
        alpha beta = some (.ok m) ∧
      (∀ ρ : Int → Nat, (∀ x, x ∈ ai ∨ x ∈ bi → ρ x < ext x) →
        ∃ old, (ai = [] ∨ bi = [] ∨ ci = ai.filter (· ∈ ci) ++ bi.filter (· ∈ ci) →
          old = C (pos ext ci ρ : Nat)) ∧
        m (pos ext ci ρ : Nat) = alpha * sumOver ext (ai.filter (· ∈ bi))
          (fun σ => A (pos ext ai σ : Nat) * B (pos ext bi σ : Nat)) ρ + beta * old) ∧
      (∀ a : Int, (a < 0 ∨ ((ci.map ext).prod : Int) ≤ a) → m a = C a) := by
  unfold contract
  by_cases hA : ai = []
  · subst hA
    rw [if_pos rfl]
    have hp : bi.Perm ci := by
      rw [List.perm_ext_iff_of_nodup hl.ndb hl.ndc]
      intro x
      constructor
      · intro hx
        by_contra hc
        exact absurd ((hl.b x hx).2 hc) (by simp)
      · intro hx
        by_contra hc
        exact absurd ((hl.c x hx).2 hc) (by simp)
    obtain ⟨m, hm, h1, h2⟩ := contractScalar_spec hp hl.ndb ext (fun x hx => hpos x (Or.inr hx)) hmc fuel
      hfc (A 0) B C alpha beta
    exact ⟨m, hm, fun ρ hρ => ⟨_, fun _ => rfl, h1 ρ (fun x hx => hρ x (Or.inr hx))⟩, h2⟩
  · rw [if_neg hA]
    by_cases hB : bi = []
    · subst hB
      rw [if_pos rfl]
      have hp : ai.Perm ci := by
        rw [List.perm_ext_iff_of_nodup hl.nda hl.ndc]
        intro x
        constructor
        · intro hx
          by_contra hc
          exact absurd ((hl.a x hx).2 hc) (by simp)
        · intro hx
          exact (hl.c x hx).2 (by simp)
      obtain ⟨m, hm, h1, h2⟩ := contractScalar_spec hp hl.nda ext (fun x hx => hpos x (Or.inl hx)) hmc
        fuel hfc (B 0) A C alpha beta
      refine ⟨m, hm, fun ρ hρ => ⟨_, fun _ => rfl, ?_⟩, h2⟩
      rw [h1 ρ (fun x hx => hρ x (Or.inl hx))]
      have he : ai.filter (· ∈ ([] : List Int)) = [] := by simp
      rw [he]
      show _ = alpha * (A _ * B ((0 : Nat) : Int)) + _
      rw [mul_comm (B 0)]; rfl
    · rw [if_neg hB]
      obtain ⟨p, cc, uA, uB, hc, L⟩ := CProps.compute_spec hl hA hB ext
      rw [hc]
      obtain ⟨m, hm, h1, h2⟩ := contractP_spec hl ext L hpos hma hmb hmc fuel hfa hfb hfc A B C junk
        alpha beta
      refine ⟨m, hm, fun ρ hρ => ?_, h2⟩
      obtain ⟨old, h3, h4⟩ := h1 ρ hρ
      refine ⟨old, fun h => h3 ?_, h4⟩
      rcases h with h | h | h
      · exact absurd h hA
      · exact absurd h hB
      · rcases L.C with ⟨_, _, _, hne⟩ | ⟨h5, _⟩
        · exfalso
          apply hne
          have fA : ci.filter (· ∈ ai) = ai.filter (· ∈ ci) := by
            conv_lhs => rw [h]
            rw [List.filter_append, List.filter_filter, List.filter_filter]
            have e1 : ai.filter (fun a => decide (a ∈ ai) && decide (a ∈ ci)) = ai.filter (· ∈ ci) := by
              apply List.filter_congr; intro x hx; simp [hx]
            have e2 : bi.filter (fun a => decide (a ∈ ai) && decide (a ∈ ci)) = [] := by
              rw [List.filter_eq_nil_iff]
              intro x hx
              simp only [Bool.and_eq_true, decide_eq_true_eq, not_and]
              exact fun h6 => (hl.b x hx).1 h6
            rw [e1, e2, List.append_nil]
          have fB : ci.filter (· ∈ bi) = bi.filter (· ∈ ci) := by
            conv_lhs => rw [h]
            rw [List.filter_append, List.filter_filter, List.filter_filter]
            have e1 : ai.filter (fun a => decide (a ∈ bi) && decide (a ∈ ci)) = [] := by
              rw [List.filter_eq_nil_iff]
              intro x hx
              simp only [Bool.and_eq_true, decide_eq_true_eq, not_and]
              exact fun h6 => (hl.a x hx).1 h6
            have e2 : bi.filter (fun a => decide (a ∈ bi) && decide (a ∈ ci)) = bi.filter (· ∈ ci) := by
              apply List.filter_congr; intro x hx; simp [hx]
            rw [e1, e2, List.nil_append]
          rcases L.ordA with e | e <;> rcases L.ordB with e' | e' <;> rw [e, e']
          · exact h
          · rw [fB]; exact h
          · rw [fA]; exact h
          · rw [fA, fB]; exact h
        · exact h5

/-- **C18.** For any label lists in which every label is on exactly two of the three tensors (no
repetitions inside one tensor), positive extents, and column-major tensors: `contract` with
`beta = 0` ends normally, and every element of `C` is `alpha` times the sum over all values of the
shared labels of the product of the elements of `A` and `B` with the same label values. Memory
outside `C` is unchanged. -/
theorem C18_contract {ai bi ci : List Int} (hl : LabelsOK ai bi ci) (ext : Int → Nat)
    (hpos : ∀ x, x ∈ ai ∨ x ∈ bi → 0 < ext x)
    (hma : ((ai.map ext).prod : Int) ≤ offMax) (hmb : ((bi.map ext).prod : Int) ≤ offMax)
    (hmc : ((ci.map ext).prod : Int) ≤ offMax) (fuel : Nat) (hfa : (ai.map ext).prod < fuel)
    (hfb : (bi.map ext).prod < fuel) (hfc : (ci.map ext).prod < fuel) (A B C junk : Int → K)
    (alpha : K) :
    ∃ m, contract fuel (init (ai.map ext)) ai (init (bi.map ext)) bi (init (ci.map ext)) ci A B C junk
        alpha 0 = some (.ok m) ∧
      (∀ ρ : Int → Nat, (∀ x, x ∈ ai ∨ x ∈ bi → ρ x < ext x) →
        m (rank (ci.map ext) (ci.map ρ) : Nat) = alpha * sumOver ext (ai.filter (· ∈ bi))
          (fun σ => A (rank (ai.map ext) (ai.map σ) : Nat) * B (rank (bi.map ext) (bi.map σ) : Nat)) ρ) ∧
      (∀ a : Int, (a < 0 ∨ ((ci.map ext).prod : Int) ≤ a) → m a = C a) := by
  obtain ⟨m, hm, h1, h2⟩ := contract_spec hl ext hpos hma hmb hmc fuel hfa hfb hfc A B C junk alpha 0
  refine ⟨m, hm, fun ρ hρ => ?_, h2⟩
  obtain ⟨old, _, h⟩ := h1 ρ hρ
  rw [show rank (ci.map ext) (ci.map ρ) = pos ext ci ρ from rfl, h]
  ring

/-- **C19**, for the label order `contractIS` produces (labels of `A` left over, then labels of `B`
left over) and for scalar operands: the result is `alpha*A*B + beta*C`.
Missing: other orders of the labels of `C`; there the claim is false of the code
(`C19_accumulate_counterexample`). -/
theorem C19_accumulate_partial {ai bi ci : List Int} (hl : LabelsOK ai bi ci) (ext : Int → Nat)
    (hord : ai = [] ∨ bi = [] ∨ ci = ai.filter (· ∈ ci) ++ bi.filter (· ∈ ci))
    (hpos : ∀ x, x ∈ ai ∨ x ∈ bi → 0 < ext x)
    (hma : ((ai.map ext).prod : Int) ≤ offMax) (hmb : ((bi.map ext).prod : Int) ≤ offMax)
    (hmc : ((ci.map ext).prod : Int) ≤ offMax) (fuel : Nat) (hfa : (ai.map ext).prod < fuel)
    (hfb : (bi.map ext).prod < fuel) (hfc : (ci.map ext).prod < fuel) (A B C junk : Int → K)
    (alpha beta : K) :
    ∃ m, contract fuel (init (ai.map ext)) ai (init (bi.map ext)) bi (init (ci.map ext)) ci A B C junk
        alpha beta = some (.ok m) ∧
      (∀ ρ : Int → Nat, (∀ x, x ∈ ai ∨ x ∈ bi → ρ x < ext x) →
        m (rank (ci.map ext) (ci.map ρ) : Nat) = alpha * sumOver ext (ai.filter (· ∈ bi))
          (fun σ => A (rank (ai.map ext) (ai.map σ) : Nat) * B (rank (bi.map ext) (bi.map σ) : Nat)) ρ +
          beta * C (rank (ci.map ext) (ci.map ρ) : Nat)) ∧
      (∀ a : Int, (a < 0 ∨ ((ci.map ext).prod : Int) ≤ a) → m a = C a) := by
  obtain ⟨m, hm, h1, h2⟩ := contract_spec hl ext hpos hma hmb hmc fuel hfa hfb hfc A B C junk alpha beta
  refine ⟨m, hm, fun ρ hρ => ?_, h2⟩
  obtain ⟨old, ho, h⟩ := h1 ρ hρ
  rw [show rank (ci.map ext) (ci.map ρ) = pos ext ci ρ from rfl, h, ho hord]

/-- The hypotheses are met by a contraction over one of three labels, with the labels of `A` and `B`
in an order that needs permuting. -/
example : LabelsOK [1, -1, 2] [3, -1, 4] [4, 1, 3, 2] ∧ LabelsOK [1, -1, 2] [3, -1, 4] [1, 2, 3, 4] :=
  ⟨⟨by decide, by decide, by decide, by decide, by decide, by decide⟩,
   ⟨by decide, by decide, by decide, by decide, by decide, by decide⟩⟩

end

/-- The values of the first `n` memory cells after a run. -/
def firstCells (n : Nat) : Run (Int → Int) → List Int
  | some (.ok m) => (List.range n).map fun k => m k
  | _ => []

/-- **C19 is false of the code in general.** `A` with labels 1,2,-1 and extents (2,2,1), `B` with
labels -1,3 and extents (1,2), `C` with labels 1,3,2, `alpha = beta = 1`. All elements of `C` are 10
before the call; afterwards they contain the scratch value 77 instead: the old `C` is lost. -/
theorem C19_accumulate_counterexample :
    LabelsOK [1, 2, -1] [-1, 3] [1, 3, 2] ∧
    firstCells 8 (contract 20 (init [2, 2, 1]) [1, 2, -1] (init [1, 2]) [-1, 3] (init [2, 2, 2])
      [1, 3, 2] (fun a => a) (fun a => a) (fun _ => 10) (fun _ => 77) 1 1) =
      [77, 77, 77, 78, 77, 77, 79, 80] :=
  ⟨⟨by decide, by decide, by decide, by decide, by decide, by decide⟩, by decide +kernel⟩

/-- A concrete run with the same labels and `beta = 0`. -/
example : firstCells 8 (contract 20 (init [2, 2, 1]) [1, 2, -1] (init [1, 2]) [-1, 3] (init [2, 2, 2])
      [1, 3, 2] (fun a => a) (fun a => a) (fun _ => 10) (fun _ => 77) 1 0) =
      [0, 0, 0, 1, 0, 0, 2, 3] := by decide +kernel

/-- A concrete run with accumulation in the order of `contractIS`. -/
example : firstCells 8 (contract 20 (init [2, 2, 1]) [1, 2, -1] (init [1, 2]) [-1, 3] (init [2, 2, 2])
      [1, 2, 3] (fun a => a) (fun a => a) (fun _ => 10) (fun _ => 77) 1 1) =
      [10, 10, 10, 10, 10, 11, 12, 13] := by decide +kernel

end Verif.Tensor
