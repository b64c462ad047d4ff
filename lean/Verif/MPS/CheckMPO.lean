import Verif.MPS.InitState
import Mathlib.Tactic.Abel

/-!
# The quantum numbers of an MPO: `checkQNs(MPO)` and `putMPOLinks`

Sources: `/repo/itensor/mps/mpo.cc:290-379` and `391-432`. What is printed is left out.
-/

namespace Verif.MPS

open Verif.Index (Index IndexSet)
open Verif.QDense (QTensor)
open Verif.QN (QN)
open Verif.TagSet (Tag TagSet)

section
variable {K : Type*} [CommRing K]

/-- The tags `"Link"`. -/
def linkTags : TagSet := ⟨Tag.ofBytes [76, 105, 110, 107] :: List.replicate 3 Tag.empty, -1, 1⟩

/-- `findCenter(MPO)` (mpo.cc:290-314): the first tensor, numbered from `j`, all of whose indices with the tag `Link` point out. -/
def findCenterO : Nat → List (QTensor K) → Res (Option Nat)
  | _, [] => .ok none
  | j, T :: Ts =>
    if T.is.isEmpty then .throw
    else if T.is.all fun I => !I.tags.hasTags linkTags || I.dir == 1 then .ok (some j)
    else findCenterO (j + 1) Ts

/-- The loop over all tensors (mpo.cc:331-344). -/
def checkDivsO : List (QTensor K) → Res Unit
  | [] => .ok ()
  | T :: Ts => match T.store with
    | none => .throw
    | some _ => (fluxT T).bind fun q => if !q.eq QN.default then .throw else checkDivsO Ts

/-- `linkIndex(H,i)`, which is `rightLinkIndex(H,i)` (mps.cc:1252-1257): the index of tensor `i` shared with the next one, with its arrow in tensor `i`. -/
def linkIndexO (H : List (QTensor K)) (i : Nat) : Res Index := linkTo H i (i + 1)

/-- The checks of the arrows on the left (mpo.cc:347-362) for the sites of `is`. -/
def checkLeftO (H : List (QTensor K)) : List Nat → Res Unit
  | [] => .ok ()
  | i :: is => (linkIndexO H i).bind fun r => if r.dir ≠ -1 then .throw
      else if i > 1 then (linkIndexO H (i - 1)).bind fun l => if l.dir ≠ 1 then .throw else checkLeftO H is
      else checkLeftO H is

/-- The checks of the arrows on the right (mpo.cc:365-378). -/
def checkRightO (H : List (QTensor K)) : List Nat → Res Unit
  | [] => .ok ()
  | i :: is => (if i < H.length then (linkIndexO H i).bind fun r => if r.dir ≠ 1 then .throw else .ok () else .ok ()).bind fun _ =>
      (linkIndexO H (i - 1)).bind fun l => if l.dir ≠ -1 then .throw else checkRightO H is

/-- `checkQNs(MPO)` (mpo.cc:316-379). -/
def checkQNsO (H : List (QTensor K)) : Res Unit :=
  (findCenterO 1 H).bind fun
    | none => .throw
    | some c => (checkDivsO H).bind fun _ => (checkLeftO H (List.range' 1 (c - 1))).bind fun _ => checkRightO H (List.range' (c + 1) (H.length - c)).reverse

end

/-- The divergences of the tensors after `putMPOLinks` with quantum numbers (mpo.cc:413-430), from those before; `q` is the sum of those already met. The link on the right points out and has the
quantum number `q += div(W(b))`, that on the left points in. -/
def putDivsFrom {G : Type*} [AddCommGroup G] : G → List G → List G
  | _, [] => []
  | q, [d] => [d - q]
  | q, d :: ds => (d - q + (q + d)) :: putDivsFrom (q + d) ds

/-- `putMPOLinks` (mpo.cc:391-432): `links.at(1)` of a vector of length one throws. -/
def putDivs {G : Type*} [AddCommGroup G] (ds : List G) : Res (List G) := if ds.length ≤ 1 then .throw else .ok (putDivsFrom 0 ds)

/-! ## What is true -/

section
variable {K : Type*} [CommRing K]

theorem bind_eq_ok {α β : Type*} {r : Res α} {f : α → Res β} {b : β} (h : r.bind f = .ok b) : ∃ a, r = .ok a ∧ f a = .ok b := by
  cases r with
  | ok a => exact ⟨a, rfl, h⟩
  | throw => cases h
  | ub => cases h

theorem checkDivsO_ok : ∀ {H : List (QTensor K)}, checkDivsO H = .ok () → ∀ T ∈ H, T.store ≠ none ∧ ∃ q, fluxT T = .ok q ∧ q.eq QN.default = true
  | [], _, T, h => by cases h
  | T :: Ts, h, U, hU => by
    unfold checkDivsO at h
    cases hs : T.store with
    | none => rw [hs] at h; cases h
    | some d =>
      rw [hs] at h
      obtain ⟨q, e1, e2⟩ := bind_eq_ok h
      by_cases hq : q.eq QN.default = true
      · rw [hq] at e2
        rcases List.mem_cons.1 hU with rfl | hU
        · exact ⟨by rw [hs]; simp, q, e1, hq⟩
        · exact checkDivsO_ok e2 U hU
      · have : q.eq QN.default = false := by simpa using hq
        rw [this] at e2
        cases e2

theorem checkLeftO_ok {H : List (QTensor K)} : ∀ {is : List Nat}, checkLeftO H is = .ok () →
    ∀ i ∈ is, (∃ r, linkIndexO H i = .ok r ∧ r.dir = -1) ∧ (1 < i → ∃ l, linkIndexO H (i - 1) = .ok l ∧ l.dir = 1)
  | [], _, i, h => by cases h
  | j :: is, h, i, hi => by
    unfold checkLeftO at h
    obtain ⟨r, e1, e2⟩ := bind_eq_ok h
    by_cases hr : r.dir = -1
    · rw [if_neg (by simpa using hr)] at e2
      by_cases hj : j > 1
      · rw [if_pos hj] at e2
        obtain ⟨l, e3, e4⟩ := bind_eq_ok e2
        by_cases hl : l.dir = 1
        · rw [if_neg (by simpa using hl)] at e4
          rcases List.mem_cons.1 hi with rfl | hi
          · exact ⟨⟨r, e1, hr⟩, fun _ => ⟨l, e3, hl⟩⟩
          · exact checkLeftO_ok e4 i hi
        · rw [if_pos (by simpa using hl)] at e4; cases e4
      · rw [if_neg hj] at e2
        rcases List.mem_cons.1 hi with rfl | hi
        · exact ⟨⟨r, e1, hr⟩, fun h => absurd h hj⟩
        · exact checkLeftO_ok e2 i hi
    · rw [if_pos (by simpa using hr)] at e2; cases e2

theorem checkRightO_ok {H : List (QTensor K)} : ∀ {is : List Nat}, checkRightO H is = .ok () →
    ∀ i ∈ is, (i < H.length → ∃ r, linkIndexO H i = .ok r ∧ r.dir = 1) ∧ ∃ l, linkIndexO H (i - 1) = .ok l ∧ l.dir = -1
  | [], _, i, h => by cases h
  | j :: is, h, i, hi => by
    unfold checkRightO at h
    obtain ⟨u, e1, e2⟩ := bind_eq_ok h
    obtain ⟨l, e3, e4⟩ := bind_eq_ok e2
    by_cases hl : l.dir = -1
    · rw [if_neg (by simpa using hl)] at e4
      rcases List.mem_cons.1 hi with rfl | hi
      · refine ⟨fun hlt => ?_, l, e3, hl⟩
        rw [if_pos hlt] at e1
        obtain ⟨r, e5, e6⟩ := bind_eq_ok e1
        by_cases hr : r.dir = 1
        · exact ⟨r, e5, hr⟩
        · rw [if_pos (by simpa using hr)] at e6; cases e6
      · exact checkRightO_ok e4 i hi
    · rw [if_pos (by simpa using hl)] at e4; cases e4

theorem findCenterO_pos : ∀ {H : List (QTensor K)} {j c : Nat}, findCenterO j H = .ok (some c) → j ≤ c ∧ c < j + H.length
  | [], j, c, h => by cases h
  | T :: Ts, j, c, h => by
    unfold findCenterO at h
    split at h
    · cases h
    · split at h
      · cases h
        simp
      · have := findCenterO_pos h
        simp only [List.length_cons]
        omega

theorem checkQNsO_ok {H : List (QTensor K)} (h : checkQNsO H = .ok ()) : ∃ c, findCenterO 1 H = .ok (some c) ∧ checkDivsO H = .ok () ∧
    checkLeftO H (List.range' 1 (c - 1)) = .ok () ∧ checkRightO H (List.range' (c + 1) (H.length - c)).reverse = .ok () := by
  unfold checkQNsO at h
  obtain ⟨o, e1, e2⟩ := bind_eq_ok h
  cases o with
  | none => cases e2
  | some c =>
    obtain ⟨_, e3, e4⟩ := bind_eq_ok e2
    obtain ⟨_, e5, e6⟩ := bind_eq_ok e4
    exact ⟨c, e1, e3, e5, e6⟩

/-- **C113** (`checkQNs`, in part): an MPO which is accepted has in every place a tensor with zero divergence. -/
theorem C113_sound_partial (H : List (QTensor K)) (h : checkQNsO H = .ok ()) : ∀ T ∈ H, T.store ≠ none ∧ ∃ q, fluxT T = .ok q ∧ q.eq QN.default = true := by
  obtain ⟨c, -, h2, -, -⟩ := checkQNsO_ok h
  exact checkDivsO_ok h2

/-- **C113** fails for `checkQNs`: no MPO with four or more tensors is accepted. `linkIndex(H,i-1)` is looked at as the index of tensor `i-1`, and so every link which is looked at twice has to point both in and out. -/
theorem C113_never_counterexample (H : List (QTensor K)) (hN : 4 ≤ H.length) : checkQNsO H ≠ .ok () := by
  intro h
  obtain ⟨c, h1, -, h3, h4⟩ := checkQNsO_ok h
  obtain ⟨hc1, hc2⟩ := findCenterO_pos h1
  have two : ∀ {i : Nat}, (∃ r, linkIndexO H i = .ok r ∧ r.dir = -1) → (∃ r, linkIndexO H i = .ok r ∧ r.dir = 1) → False := by
    rintro i ⟨r, e1, e2⟩ ⟨r', e3, e4⟩
    rw [e1] at e3
    cases e3
    rw [e2] at e4
    cases e4
  by_cases hc : 3 ≤ c
  · have m1 := (checkLeftO_ok h3 1 (List.mem_range'_1.2 (by omega))).1
    have m2 := (checkLeftO_ok h3 2 (List.mem_range'_1.2 (by omega))).2 (by omega)
    exact two m1 m2
  · have m1 := (checkRightO_ok h4 H.length (List.mem_reverse.2 (List.mem_range'_1.2 (by omega)))).2
    have m2 := (checkRightO_ok h4 (H.length - 1) (List.mem_reverse.2 (List.mem_range'_1.2 (by omega)))).1 (by omega)
    exact two m1 m2

end

section
variable {G : Type*} [AddCommGroup G]

theorem sum_putDivsFrom : ∀ (ds : List G) (q : G), ds ≠ [] → (putDivsFrom q ds).sum = ds.sum - q
  | [], _, h => absurd rfl h
  | [d], q, _ => by simp [putDivsFrom]
  | d :: e :: ds, q, _ => by
    rw [putDivsFrom, List.sum_cons, sum_putDivsFrom (e :: ds) (q + d) (by simp), List.sum_cons (a := d)]
    · abel
    · simp

theorem putDivsFrom_zero : ∀ (ds : List G), (∀ d ∈ ds, d = 0) → ∀ e ∈ putDivsFrom 0 ds, e = 0
  | [], _, e, h => by simp [putDivsFrom] at h
  | [d], hd, e, h => by
    have : e = d - 0 := by simpa [putDivsFrom] using h
    rw [this, hd d (by simp), sub_zero]
  | d :: e' :: ds, hd, e, h => by
    rw [putDivsFrom] at h
    · rcases List.mem_cons.1 h with rfl | h
      · rw [hd d (by simp)]; simp
      · rw [hd d (by simp), zero_add] at h
        exact putDivsFrom_zero (e' :: ds) (fun x hx => hd x (List.mem_cons_of_mem _ hx)) e h
    · simp

/-- **C113** (`putMPOLinks`, in part). For two or more tensors the sum of the divergences stays what it was; if all divergences are zero, as for the identity, they stay zero. -/
theorem C113_links_partial (ds : List G) (hN : 2 ≤ ds.length) : ∃ es, putDivs ds = .ok es ∧ es.sum = ds.sum ∧ ((∀ d ∈ ds, d = 0) → ∀ e ∈ es, e = 0) := by
  refine ⟨putDivsFrom 0 ds, by unfold putDivs; rw [if_neg (by omega)], ?_, putDivsFrom_zero ds⟩
  rw [sum_putDivsFrom ds 0 (by rintro rfl; simp at hN), sub_zero]

/-- **C113** fails for `putMPOLinks`: with operators which change the quantum number, such as `S+` on one site and `S-` on the next, the divergences of the tensors are doubled, where the links could make them zero; and for one site it throws. -/
theorem C113_links_counterexample : putDivs [(2 : Int), -2] = .ok [4, -4] ∧ putDivs [(0 : Int)] = .throw := ⟨by decide, by decide⟩

end

/-! ## Examples -/

/-- Link `i` of dimension one with quantum number zero and the arrow `dir`. -/
def exLinkO (i : Nat) (dir : Int) : Index := ⟨i, 1, dir, { linkTags with plev := 0 }, [(QN.default, 1)]⟩

/-- A site of dimension one. -/
def exSiteO (i : Nat) (p : Int) (dir : Int) : Index := ⟨i, 1, dir, ⟨List.replicate 4 Tag.empty, p, 0⟩, [(QN.default, 1)]⟩

/-- A tensor with a single element. -/
def exTenO (is : IndexSet) : QTensor Int := ⟨is, some ⟨[⟨List.replicate is.length 0, 0⟩], 1, fun _ => 1⟩⟩

/-- Four tensors with the centre at the first: all arrows are as they should be. -/
def exMPO : List (QTensor Int) :=
  [exTenO [exSiteO 1 0 (-1), exSiteO 1 1 1, exLinkO 11 1], exTenO [exSiteO 2 0 (-1), exSiteO 2 1 1, exLinkO 11 (-1), exLinkO 12 1],
    exTenO [exSiteO 3 0 (-1), exSiteO 3 1 1, exLinkO 12 (-1), exLinkO 13 1], exTenO [exSiteO 4 0 (-1), exSiteO 4 1 1, exLinkO 13 (-1)]]

/-- The arrows are right by the checks of `checkQNs(MPS)`, and all divergences are zero, but `checkQNs(MPO)` throws. -/
theorem C113_arrows_counterexample : findCenterO 1 exMPO = .ok (some 1) ∧ checkDivsO exMPO = .ok () ∧ checkLeft exMPO [] = .ok true ∧ checkRight exMPO [4, 3, 2] = .ok true ∧ checkQNsO exMPO = .throw := by
  refine ⟨?_, ?_, ?_, ?_, ?_⟩ <;> decide +kernel

/-- Two tensors with the centre at the second: accepted. -/
example : checkQNsO [exTenO [exSiteO 1 0 (-1), exSiteO 1 1 1, exLinkO 11 (-1)], exTenO [exSiteO 2 0 (-1), exSiteO 2 1 1, exLinkO 11 1]] = .ok () := by decide +kernel

end Verif.MPS
