import Verif.MPS.InitState
import Verif.MPS.InnerMain

/-! # Lemmas about product states -/

namespace Verif.MPS

open Verif.Index (Index IndexSet)
open Verif.Index.IndexSet (keys Key commonInds)
open Verif.QDense
open Verif.QN (QN IsQN norm norm_add_norm_left norm_add_norm_right norm_neg_norm norm_norm)
open Verif.Tensor
open Verif.Net (DTensor)

/-! ## Quantum numbers -/

/-- A quantum number built by the API with the names `u`. -/
def QOK (M : Verif.QN.Name → Int) (u : List Verif.QN.Name) (q : QN) : Prop :=
  IsQN M q ∧ ∀ v ∈ q, v.active = true → v.name ∈ u

section
variable {M : Verif.QN.Name → Int} {u : List Verif.QN.Name}

theorem qok_default : QOK M u QN.default := ⟨Verif.QN.isQN_default M, default_names⟩

theorem val_default (n : Verif.QN.Name) : QN.default.val n = 0 := by
  rw [(Verif.QN.WF.default fun _ => 0).val]; rfl

theorem QOK.val_norm {q : QN} (h : QOK M u q) (n : Verif.QN.Name) : norm (M n) (q.val n) = q.val n :=
  isQN_val_norm h.1 n

theorem QOK.scale {q : QN} (h : QOK M u q) (d : Int) : QOK M u (q.scale d) ∧ ∀ n, (q.scale d).val n = norm (M n) (q.val n * d) :=
  ⟨⟨(Verif.QN.C06_scale_val h.1 d).1, isQN_scale_names h.1 d h.2⟩, (Verif.QN.C06_scale_val h.1 d).2⟩

theorem QOK.add (hu : u.length ≤ 4) {a b : QN} (ha : QOK M u a) (hb : QOK M u b) :
    QOK M u (a.add b) ∧ ∀ n, (a.add b).val n = norm (M n) (a.val n + b.val n) := by
  obtain ⟨h1, h2, h3⟩ := isQN_add_names ha.1 hb.1 hu ha.2 hb.2
  exact ⟨⟨h1, h3⟩, h2⟩

theorem QOK.neg {q : QN} (h : QOK M u q) : QOK M u q.neg ∧ ∀ n, q.neg.val n = norm (M n) (- q.val n) := by
  obtain ⟨⟨l, hl⟩, hn⟩ := h
  obtain ⟨h1, h2⟩ := Verif.QN.neg_wf hl
  refine ⟨⟨⟨_, h1⟩, fun v hv hv2 => ?_⟩, fun n => by rw [h1.val, h2, hl.val]⟩
  obtain ⟨w, hw1, hw2⟩ := List.mem_map.1 (h1.mem_active.1 ⟨hv, hv2⟩)
  have := hl.mem_active.2 hw1
  rw [← hw2]; exact hn w this.1 this.2

theorem QOK.sub (hu : u.length ≤ 4) {a b : QN} (ha : QOK M u a) (hb : QOK M u b) :
    QOK M u (a.sub b) ∧ ∀ n, (a.sub b).val n = norm (M n) (a.val n - b.val n) := by
  obtain ⟨h1, h2⟩ := hb.neg
  obtain ⟨h3, h4⟩ := ha.add hu h1
  exact ⟨h3, fun n => by rw [QN.sub, h4, h2, norm_add_norm_right, Int.sub_eq_add_neg]⟩

theorem nextQN_ok (hu : u.length ≤ 4) {q x : QN} (hq : QOK M u q) (hx : QOK M u x) :
    QOK M u (nextQN q x) ∧ ∀ n, (nextQN q x).val n = norm (M n) (q.val n - x.val n) := by
  obtain ⟨a1, a2⟩ := hq.neg
  obtain ⟨b1, b2⟩ := a1.scale (-1)
  obtain ⟨c1, c2⟩ := b1.sub hu hx
  obtain ⟨d1, d2⟩ := c1.scale 1
  refine ⟨d1, fun n => ?_⟩
  rw [nextQN, d2, mul_one, c2, norm_norm, b2, a2]
  rw [show norm (M n) (-q.val n) * -1 = - norm (M n) (-q.val n) by ring, norm_neg_norm, neg_neg, hq.val_norm]

/-! ## Sites -/

/-- A site index as the library makes them, with a value in range: arrow `Out`, sectors not empty. -/
structure SiteOK (M : Verif.QN.Name → Int) (u : List Verif.QN.Name) (fuel : Nat) (v : IVal) : Prop where
  ne : 0 < v.1.nblock
  pos : ∀ s ∈ v.1.qns, 0 < s.2
  dir : v.1.dir = 1
  ok : ∀ s ∈ v.1.qns, QOK M u s.1
  val : v.2 < (v.1.qns.map (·.2)).sum
  fuel : v.1.nblock < fuel
  max : (v.1.nblock : Int) ≤ offMax

/-- The quantum number of the state of a site. -/
def siteQN (v : IVal) : QN := sectorQN v.1.qns v.2

theorem sectorQN_mem : ∀ (qs : List (QN × Nat)) (e : Nat), e < (qs.map (·.2)).sum → ∃ s ∈ qs, s.1 = sectorQN qs e
  | [], e, h => by simp at h
  | p :: t, e, h => by
    unfold sectorQN
    by_cases hp : e < p.2
    · exact ⟨p, by simp, by rw [if_pos hp]⟩
    · rw [if_neg hp]
      obtain ⟨s, h1, h2⟩ := sectorQN_mem t (e - p.2) (by simp at h; omega)
      exact ⟨s, by simp [h1], h2⟩

theorem valQN_sector : ∀ (qs : List (QN × Nat)) (e k : Nat), e < (qs.map (·.2)).sum →
    ∃ b s, Index.sectorLoop (qs.map (·.2)) k ((e : Int) + 1) = .ok (k + b, s) ∧ (qs[b]?).map (·.1) = some (sectorQN qs e)
  | [], e, k, h => by simp at h
  | p :: t, e, k, h => by
    simp only [List.map_cons, Index.sectorLoop, sectorQN]
    by_cases hp : e < p.2
    · rw [if_neg (by omega), if_pos hp]
      exact ⟨0, _, rfl, rfl⟩
    · rw [if_pos (by omega), if_neg hp]
      obtain ⟨b, s, h1, h2⟩ := valQN_sector t (e - p.2) (k + 1) (by simp at h; omega)
      refine ⟨b + 1, s, ?_, by simpa using h2⟩
      rw [show ((e : Int) + 1 - p.2) = ((e - p.2 : Nat) : Int) + 1 by omega, h1]
      congr 2; omega

theorem ivQN_ok {fuel : Nat} {v : IVal} (h : SiteOK M u fuel v) : ivQN v = .ok (siteQN v) ∧ QOK M u (siteQN v) := by
  obtain ⟨b, s, h1, h2⟩ := valQN_sector v.1.qns v.2 1 h.val
  obtain ⟨p, h3, h4⟩ := sectorQN_mem v.1.qns v.2 h.val
  refine ⟨?_, by rw [siteQN, ← h4]; exact h.ok p h3⟩
  unfold ivQN Index.valQN Index.sectorInfo
  rw [h1, Res.bind_ok]
  obtain ⟨q, h5, h6⟩ := Option.map_eq_some_iff.1 h2
  simp only [Nat.add_sub_cancel_left, h5, h6, siteQN]

/-- The sum of the quantum numbers of some sites. -/
def qsum (vs : List IVal) (n : Verif.QN.Name) : Int := (vs.map fun v => (siteQN v).val n).sum

theorem leftQN_ok (hu : u.length ≤ 4) {fuel : Nat} : ∀ {vs : List IVal} {q : QN}, (∀ v ∈ vs, SiteOK M u fuel v) → QOK M u q →
    ∃ q', leftQN vs q = .ok q' ∧ QOK M u q' ∧ ∀ n, q'.val n = norm (M n) (q.val n + qsum vs n)
  | [], q, _, hq => ⟨q, rfl, hq, fun n => by simp [qsum, hq.val_norm]⟩
  | v :: vs, q, h, hq => by
    obtain ⟨h1, h2⟩ := ivQN_ok (h v (by simp))
    obtain ⟨h3, h4⟩ := h2.scale (-1)
    obtain ⟨h5, h6⟩ := hq.sub hu h3
    obtain ⟨q', g1, g2, g3⟩ := leftQN_ok hu (vs := vs) (fun w hw => h w (by simp [hw])) h5
    refine ⟨q', by rw [leftQN, h1, Res.bind_ok, g1], g2, fun n => ?_⟩
    rw [g3, h6, h4, norm_add_norm_left]
    rw [show q.val n - norm (M n) ((siteQN v).val n * -1) + qsum vs n = - norm (M n) ((siteQN v).val n * -1) + (q.val n + qsum vs n) by ring,
      ← norm_add_norm_left, norm_neg_norm, norm_add_norm_left]
    congr 1
    simp only [qsum, List.map_cons, List.sum_cons]; ring

/-! ## Setting one element -/

section
variable {K : Type*} [CommRing K]
variable {env : Key → List (QN × Nat)}

/-- `setElt` makes the tensor with one element 1 and the flux of that element. -/
theorem setEltQ_spec {fuel : Nat} {v : List IVal} (hG : GoodIs M u env (v.map (·.1))) (hne : v ≠ [])
    (hs1 : (nb (v.map (·.1))).prod < fuel) (hs2 : ((nb (v.map (·.1))).prod : Int) ≤ offMax)
    (hv : Valid (dims (v.map (·.1))) (v.map (·.2))) :
    ∃ (d : QDense K) (div : QN), setEltQ fuel v = some (.ok ⟨v.map (·.1), some d⟩) ∧
      (∀ ind, Valid (dims (v.map (·.1))) ind → getElt d (v.map (·.1)) ind = .ok (if ind = v.map (·.2) then 1 else 0)) ∧
      calcDiv (v.map (·.1)) d = .ok div ∧ IsQN M div ∧
      ∀ n, div.val n = norm (M n) (eltVal (v.map (·.1)) (v.map (·.2)) n) := by
  have hne' : v.map (·.1) ≠ [] := by simpa using hne
  generalize his : v.map (·.1) = is at *
  generalize hind : v.map (·.2) = ind0 at *
  obtain ⟨b, w, hb, hw, rfl⟩ := exists_glue hv
  obtain ⟨k1, k2⟩ := fluxOf_default hG.ok hb
  obtain ⟨d, g1, g2, g3, g4⟩ := C21_ofDiv (K := K) hne' hG.ne hG.ok k1 fuel hs1 hs2
  have hfl : ∀ o ∈ d.offsets, ∀ n, norm (M n) (fluxVal is o.block n) = norm (M n) (fluxVal is b n) := by
    intro o ho n
    rw [((g4 o.block).1 ⟨o, ho, rfl⟩).2 n, k2]
  obtain ⟨o0, ho0, e0⟩ := (g4 b).2 ⟨by
    have := hb
    unfold Valid nb at this
    rw [List.forall₂_map_right_iff] at this
    exact this, fun n => by rw [k2]⟩
  obtain ⟨dv, c1, c2, c3⟩ := calcDiv_ok hG.ok g2 hne' (hasFlux_of hfl)
  have hdv : ∀ n, dv.val n = norm (M n) (fluxVal is b n) := fun n => by rw [← c3 o0 ho0 n, e0]
  obtain ⟨d', p1, p2, p3, p4⟩ := setElt_glue g2 hb hw (1 : K)
  have hfl' : ∀ o ∈ d'.offsets, ∀ n, norm (M n) (fluxVal is o.block n) = norm (M n) (fluxVal is b n) := by
    intro o ho n
    rcases (p3 o.block).1 ⟨o, ho, rfl⟩ with e | ⟨x, hx, e⟩
    · rw [e]
    · rw [← e]; exact hfl x hx n
  obtain ⟨dv', c1', c2', c3'⟩ := calcDiv_ok hG.ok p2 hne' (hasFlux_of hfl')
  obtain ⟨o1, ho1, e1⟩ := (p3 b).2 (Or.inl rfl)
  refine ⟨d', dv', ?_, ?_, c1', c2', fun n => ?_⟩
  · unfold setEltQ setVals storeFor allocElt checkEltFlux
    simp only [his, hind]
    rw [if_neg (by simpa using glue_length hb hw), eltFlux_glue hb hw]
    simp only [Run.lift, Run.bind_ok, g1, Res.bind_ok, c1]
    rw [if_pos ((Verif.QN.C07_eq_iff k1 c2).2 fun n => by rw [k2, hdv]), Run.bind_ok, p1, Run.bind_ok]
  · intro ind hi
    obtain ⟨b', w', hb', hw', rfl⟩ := exists_glue hi
    rw [getElt_glue p2 hb' hw', p4 b' w' hb' hw']
    by_cases e : b' = b ∧ w' = w
    · obtain ⟨rfl, rfl⟩ := e
      simp
    · rw [if_neg e, if_neg fun h => e (glue_inj hb' hw' hb hw h)]
      unfold elem
      split
      · rw [g3]
      · rfl
  · rw [← c3' o1 ho1 n, e1, eltVal_glue hb hw]

end

end

end Verif.MPS
