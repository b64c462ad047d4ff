import Verif.Tensor.Contract

/-!
# Lemmas on the loops of `CProps`
-/

namespace Verif.Tensor

open Range Permutation

/-! ### findIndex -/

theorem findIndex_of_notMem {l : List Int} {x : Int} (h : x ∉ l) : findIndex l x = -1 := by
  unfold findIndex
  have : l.findIdx? (· == x) = none := by
    rw [List.findIdx?_eq_none_iff]
    intro y hy
    simp only [beq_eq_false_iff_ne]
    rintro rfl; exact h hy
  rw [this]

theorem findIndex_of_mem {l : List Int} {x : Int} (h : x ∈ l) :
    ∃ k : Nat, findIndex l x = k ∧ l[k]? = some x ∧ l.findIdx? (fun v => x == v) = some k := by
  obtain ⟨k, hk⟩ : ∃ k, l.findIdx? (· == x) = some k := by
    rw [← Option.isSome_iff_exists, List.findIdx?_isSome, List.any_eq_true]
    exact ⟨x, h, by simp⟩
  obtain ⟨hlt, heq, _⟩ := List.findIdx?_eq_some_iff_getElem.1 hk
  refine ⟨k, by unfold findIndex; rw [hk], ?_, ?_⟩
  · rw [List.getElem?_eq_getElem hlt]; simpa using heq
  · rw [← hk]; congr 1; funext v; exact Bool.eq_iff_iff.2 ⟨fun h => by simp at h; simp [h], fun h => by simp at h; simp [h]⟩

theorem findIndex_neg {l : List Int} {x : Int} : findIndex l x < 0 ↔ x ∉ l := by
  constructor
  · intro h hm
    obtain ⟨k, hk, _⟩ := findIndex_of_mem hm
    omega
  · intro h; rw [findIndex_of_notMem h]; omega

theorem findIndex_eq_of_get {l : List Int} (hnd : l.Nodup) {x : Int} {k : Nat} (h : l[k]? = some x) :
    findIndex l x = k := by
  have hm : x ∈ l := List.mem_of_getElem? h
  obtain ⟨j, hj, hj', _⟩ := findIndex_of_mem hm
  obtain ⟨h1, h1'⟩ := List.getElem?_eq_some_iff.1 h
  obtain ⟨h2, h2'⟩ := List.getElem?_eq_some_iff.1 hj'
  have := (List.Nodup.getElem_inj_iff hnd (hi := h1) (hj := h2)).1 (by rw [h1', h2'])
  rw [hj, this]

/-! ### loops -/

namespace CProps

theorem abLoop_spec (bi as : List Int) (i : Nat) (s : ABInfo) :
    (abLoop bi as i s).AtoB = s.AtoB ++ as.map (findIndex bi) ∧
    (abLoop bi as i s).ncont = s.ncont + (as.filter (· ∈ bi)).length ∧
    (i + as.length ≤ s.Acstart → (abLoop bi as i s).Acstart =
      if (as.findIdx (· ∈ bi)) < as.length then i + as.findIdx (· ∈ bi) else s.Acstart) ∧
    (s.Acstart ≤ i → (abLoop bi as i s).Acstart = s.Acstart) ∧
    (abLoop bi as i s).Bcstart ≤ s.Bcstart ∧
    (∀ x ∈ as, ∀ j : Nat, findIndex bi x = j → (abLoop bi as i s).Bcstart ≤ j) ∧
    ((abLoop bi as i s).Bcstart = s.Bcstart ∨
      ∃ x ∈ as, findIndex bi x = ((abLoop bi as i s).Bcstart : Int)) := by
  induction as generalizing i s with
  | nil => simp [abLoop]
  | cons a as ih =>
    simp only [abLoop]
    by_cases h : a ∈ bi
    · obtain ⟨j, hj, _, _⟩ := findIndex_of_mem h
      have hn : ¬ ((j : Int) < 0) := by omega
      rw [hj, if_neg hn]
      obtain ⟨h1, h2, h3, h4, h5, h6, h7⟩ := ih (i + 1) ⟨s.AtoB ++ [(j : Int)], s.ncont + 1,
        if i < s.Acstart then i else s.Acstart,
        if (j : Int).toNat < s.Bcstart then (j : Int).toNat else s.Bcstart⟩
      dsimp only at h1 h2 h3 h4 h5 h6 h7
      simp only [Int.toNat_natCast] at h1 h2 h3 h4 h5 h6 h7 ⊢
      refine ⟨?_, ?_, ?_, ?_, ?_, ?_, ?_⟩
      · rw [h1]; simp [hj]
      · rw [h2]; simp [h]; omega
      · intro hle
        simp only [List.length_cons] at hle
        have e0 : (a :: as).findIdx (fun x => decide (x ∈ bi)) = 0 := by simp [List.findIdx_cons, h]
        rw [e0, h4 (by split <;> omega), if_pos (show i < s.Acstart by omega)]
        simp
      · intro hle
        rw [h4 (by split <;> omega), if_neg (by omega)]
      · refine h5.trans ?_; split <;> omega
      · intro x hx j' hj'
        rcases List.mem_cons.1 hx with rfl | hx
        · have : j' = j := by omega
          subst this
          refine h5.trans ?_; split <;> omega
        · exact h6 x hx j' hj'
      · rcases h7 with h7 | ⟨x, hx, hx'⟩
        · by_cases hlt : j < s.Bcstart
          · rw [if_pos hlt] at h7
            right; exact ⟨a, by simp, by rw [hj, if_pos hlt, h7]⟩
          · rw [if_neg hlt] at h7; left; rw [if_neg hlt]; exact h7
        · right; exact ⟨x, by simp [hx], hx'⟩
    · rw [findIndex_of_notMem h, if_pos (by omega)]
      obtain ⟨h1, h2, h3, h4, h5, h6, h7⟩ := ih (i + 1) { s with AtoB := s.AtoB ++ [-1] }
      dsimp only at h1 h2 h3 h4 h5 h6 h7
      refine ⟨?_, ?_, ?_, ?_, ?_, ?_, ?_⟩
      · rw [h1]; simp [findIndex_of_notMem h]
      · rw [h2]; simp [h]
      · intro hle
        simp only [List.length_cons] at hle
        have e0 : (a :: as).findIdx (fun x => decide (x ∈ bi)) =
            as.findIdx (fun x => decide (x ∈ bi)) + 1 := by simp [List.findIdx_cons, h]
        rw [h3 (by omega), e0]
        simp only [List.length_cons]
        by_cases hlt : as.findIdx (fun x => decide (x ∈ bi)) < as.length
        · rw [if_pos hlt, if_pos (by omega)]; omega
        · rw [if_neg hlt, if_neg (by omega)]
      · intro hle; exact h4 (by omega)
      · exact h5
      · intro x hx j' hj'
        rcases List.mem_cons.1 hx with rfl | hx
        · rw [findIndex_of_notMem h] at hj'; omega
        · exact h6 x hx j' hj'
      · rcases h7 with h7 | ⟨x, hx, hx'⟩
        · left; exact h7
        · right; exact ⟨x, by simp [hx], hx'⟩

theorem ustartLoop_spec (X : List Int) (i u : Nat) :
    (u ≤ i → ustartLoop X i u = u) ∧
    (i + X.length ≤ u → ustartLoop X i u =
      if X.findIdx (fun k => decide (0 ≤ k)) < X.length then i + X.findIdx (fun k => decide (0 ≤ k))
      else u) := by
  induction X generalizing i u with
  | nil => simp [ustartLoop]
  | cons k X ih =>
    simp only [ustartLoop]
    by_cases h : k < 0
    · rw [if_pos h]
      have e0 : (k :: X).findIdx (fun k => decide (0 ≤ k)) = X.findIdx (fun k => decide (0 ≤ k)) + 1 := by
        have : ¬ (0 ≤ k) := by omega
        simp [List.findIdx_cons, this]
      refine ⟨fun hu => (ih (i + 1) u).1 (by omega), fun hu => ?_⟩
      simp only [List.length_cons] at hu
      rw [(ih (i + 1) u).2 (by omega), e0, List.length_cons]
      by_cases hlt : X.findIdx (fun k => decide (0 ≤ k)) < X.length
      · rw [if_pos hlt, if_pos (by omega)]; omega
      · rw [if_neg hlt, if_neg (by omega)]
    · rw [if_neg h]
      have e0 : (k :: X).findIdx (fun k => decide (0 ≤ k)) = 0 := by
        have : 0 ≤ k := by omega
        simp [List.findIdx_cons, this]
      refine ⟨fun hu => ?_, fun hu => ?_⟩
      · rw [if_neg (by omega)]; exact (ih (i + 1) u).1 (by omega)
      · simp only [List.length_cons] at hu
        rw [if_pos (by omega), (ih (i + 1) i).1 (by omega), e0, if_pos (by simp)]; omega

theorem ustart_eq (X : List Int) :
    ustartLoop X 0 X.length = X.findIdx (fun k => decide (0 ≤ k)) := by
  rw [(ustartLoop_spec X 0 X.length).2 (by omega)]
  have := List.findIdx_le_length (xs := X) (p := fun k => decide (0 ≤ k))
  split <;> omega

theorem dimUnc_spec (f : Int → Int) (ext : Int → Nat) (xi : List Int) (p : Nat) :
    dimUnc (xi.map f) (xi.map ext) p = p * ((xi.filter (fun x => decide (0 ≤ f x))).map ext).prod := by
  induction xi generalizing p with
  | nil => simp [dimUnc]
  | cons x xi ih =>
    simp only [List.map_cons, dimUnc, ih, List.filter_cons]
    by_cases h : f x < 0
    · have h' : ¬ (0 ≤ f x) := by omega
      simp [h, h']
    · have h' : 0 ≤ f x := by omega
      simp [h, h', Nat.mul_assoc]

theorem dimCon_spec (f : Int → Int) (ext : Int → Nat) (xi : List Int) (p : Nat) :
    dimCon (xi.map f) (xi.map ext) p = p * ((xi.filter (fun x => decide (f x < 0))).map ext).prod := by
  induction xi generalizing p with
  | nil => simp [dimCon]
  | cons x xi ih =>
    simp only [List.map_cons, dimCon, ih, List.filter_cons]
    by_cases h : f x < 0 <;> simp [h, Nat.mul_assoc]

theorem uncExtents_spec (f : Int → Int) (ext : Int → Nat) (xi : List Int) :
    uncExtents (xi.map f) (xi.map ext) = (xi.filter (fun x => decide (0 ≤ f x))).map ext := by
  induction xi with
  | nil => simp [uncExtents]
  | cons x xi ih =>
    simp only [List.map_cons, uncExtents, ih, List.filter_cons]
    by_cases h : f x < 0
    · have h' : ¬ (0 ≤ f x) := by omega
      simp [h, h']
    · have h' : 0 ≤ f x := by omega
      simp [h, h']

/-- Values written by `pcLoop`. -/
def vals (X : List Int) : List Nat := (X.filter (fun k => decide (0 ≤ k))).map Int.toNat

theorem vals_cons_neg {k : Int} {X : List Int} (h : k < 0) : vals (k :: X) = vals X := by
  have : ¬ (0 ≤ k) := by omega
  simp [vals, this]

theorem vals_cons_nonneg {k : Int} {X : List Int} (h : ¬ k < 0) : vals (k :: X) = k.toNat :: vals X := by
  have : 0 ≤ k := by omega
  simp [vals, this]

theorem pcLoop_spec (X : List Int) (c : Nat) (P : Permutation) (h : c + (vals X).length ≤ P.length) :
    pcLoop X c P = .ok (c + (vals X).length, P.take c ++ vals X ++ P.drop (c + (vals X).length)) := by
  induction X generalizing c P with
  | nil => simp [pcLoop, vals]
  | cons k X ih =>
    simp only [pcLoop]
    by_cases hk : k < 0
    · rw [if_pos hk, vals_cons_neg hk]
      exact ih c P (by rwa [vals_cons_neg hk] at h)
    · rw [vals_cons_nonneg hk] at h ⊢
      simp only [List.length_cons] at h ⊢
      rw [if_neg hk, setFromTo, if_pos (by omega), Res.bind_ok,
        ih (c + 1) (P.set c k.toNat) (by simp; omega)]
      congr 2
      · omega
      · have e1 : (P.set c k.toNat).take (c + 1) = P.take c ++ [k.toNat] := by
          apply List.ext_getElem?
          intro n
          rcases Nat.lt_trichotomy n c with hn | hn | hn
          · rw [List.getElem?_take_of_lt (by omega), List.getElem?_set_ne (by omega),
              List.getElem?_append_left (by simp; omega), List.getElem?_take_of_lt hn]
          · subst hn
            rw [List.getElem?_take_of_lt (by omega), List.getElem?_set_self (by omega),
              List.getElem?_append_right (by simp)]
            have : min n P.length = n := by omega
            simp [this]
          · rw [List.getElem?_eq_none (by simp; omega), List.getElem?_eq_none (by simp; omega)]
        have e2 : (P.set c k.toNat).drop (c + 1 + (vals X).length) = P.drop (c + ((vals X).length + 1)) := by
          rw [List.drop_set_of_lt (by omega)]
          congr 1; omega
        rw [e1, e2]; simp

theorem calcPC_spec (X Y : List Int) (P : Permutation) (h : (vals X).length + (vals Y).length = P.length) :
    calcPC X Y P = .ok (vals X ++ vals Y) := by
  unfold calcPC
  rw [pcLoop_spec X 0 P (by omega), Res.bind_ok]
  simp only [Nat.zero_add, List.take_zero, List.nil_append]
  rw [pcLoop_spec Y (vals X).length _ (by simp; omega), Res.map_ok]
  congr 1
  simp only [List.take_left, List.append_assoc]
  rw [← List.append_assoc, List.drop_eq_nil_of_le (by simp; omega), List.append_nil]

theorem sameLoop_spec (X : List Int) (c : Nat) (h : sameLoop X c = true) :
    vals X = List.range' c (vals X).length := by
  induction X generalizing c with
  | nil => simp [vals]
  | cons k X ih =>
    simp only [sameLoop] at h
    by_cases hk : k < 0
    · rw [if_pos hk] at h; rw [vals_cons_neg hk]; exact ih c h
    · rw [if_neg hk] at h
      by_cases he : k ≠ (c : Int)
      · rw [if_pos he] at h; exact absurd h (by simp)
      · rw [if_neg he] at h
        have he : k = c := by omega
        rw [vals_cons_nonneg hk, List.length_cons, List.range'_succ, ← ih (c + 1) (by exact_mod_cast h)]
        rw [he]; simp

theorem sameord_spec (X : List Int) (h : sameord X (X.findIdx (fun k => decide (0 ≤ k))) = true) :
    ∃ c, vals X = List.range' c (vals X).length := by
  unfold sameord at h
  rcases lt_or_ge (X.findIdx (fun k => decide (0 ≤ k))) X.length with hlt | hge
  · have hp := List.findIdx_getElem (w := hlt)
    rw [List.getElem?_eq_getElem hlt] at h
    simp only at h
    simp only [decide_eq_true_eq] at hp
    obtain ⟨c, hc⟩ := Int.eq_ofNat_of_zero_le hp
    rw [hc] at h
    exact ⟨c, sameLoop_spec X c h⟩
  · have hall : vals X = [] := by
      unfold vals
      rw [List.map_eq_nil_iff, List.filter_eq_nil_iff]
      intro x hx hx'
      exact absurd (List.findIdx_lt_length_of_exists (p := fun k => decide (0 ≤ k)) ⟨x, hx, hx'⟩) (by omega)
    exact ⟨0, by rw [hall]; rfl⟩

theorem contracted_map {xi : List Int} {f : Int → Int} {p : Nat} {x : Int} (h : xi[p]? = some x) :
    contracted (xi.map f) p = .ok (decide (f x < 0)) := by
  simp [contracted, h]

theorem contigLoop_spec (xi : List Int) (f : Int → Int) (n p : Nat)
    (h : n ≤ ((xi.drop p).filter (fun x => decide (f x < 0))).length) :
    ∃ b, contigLoop (xi.map f) n p = .ok b ∧ (b = false → ∀ x ∈ (xi.drop p).take n, f x < 0) := by
  induction n generalizing p with
  | zero => exact ⟨false, rfl, by simp⟩
  | succ n ih =>
    have hp : p < xi.length := by
      by_contra hp
      rw [List.drop_eq_nil_of_le (by omega)] at h; simp at h
    have hx : xi[p]? = some xi[p] := List.getElem?_eq_getElem hp
    simp only [contigLoop, contracted_map hx, Res.bind_ok]
    have hd : xi.drop p = xi[p] :: xi.drop (p + 1) := List.drop_eq_getElem_cons hp
    by_cases hc : f xi[p] < 0
    · obtain ⟨b, hb, hb'⟩ := ih (p + 1) (by
        rw [hd, List.filter_cons, if_pos (by simpa using hc), List.length_cons] at h; omega)
      refine ⟨b, by simpa [hc] using hb, fun hf x hx => ?_⟩
      rw [hd, List.take_succ_cons] at hx
      rcases List.mem_cons.1 hx with rfl | hx
      · exact hc
      · exact hb' hf x hx
    · exact ⟨true, by simp [hc], by simp⟩

/-- splitting a list by a predicate when the satisfying elements come first -/
theorem split_front {α} (l : List α) (q : α → Bool) (h : ∀ x ∈ l.take (l.filter q).length, q x = true) :
    l = l.filter q ++ l.filter (fun x => !q x) := by
  set n := (l.filter q).length with hn
  have e : l.take n ++ l.drop n = l := List.take_append_drop n l
  have f1 : (l.take n).filter q = l.take n := List.filter_eq_self.2 h
  have hnl : n ≤ l.length := List.length_filter_le q l
  have f2 : (l.drop n).filter q = [] := by
    have : (l.filter q).length = (l.take n).length + ((l.drop n).filter q).length := by
      conv_lhs => rw [← e]
      rw [List.filter_append, List.length_append, f1]
    rw [← hn, List.length_take_of_le hnl] at this
    exact List.length_eq_zero_iff.1 (by omega)
  have f3 : (l.take n).filter (fun x => !q x) = [] := by
    rw [List.filter_eq_nil_iff]; intro x hx; simp [h x hx]
  have f4 : (l.drop n).filter (fun x => !q x) = l.drop n := by
    rw [List.filter_eq_self]; intro x hx
    have := List.filter_eq_nil_iff.1 f2 x hx
    simpa using this
  have g1 : l.filter q = l.take n := by
    conv_lhs => rw [← e]
    rw [List.filter_append, f1, f2, List.append_nil]
  have g2 : l.filter (fun x => !q x) = l.drop n := by
    conv_lhs => rw [← e]
    rw [List.filter_append, f3, f4, List.nil_append]
  rw [g1, g2, e]

theorem needPerm_spec (xi : List Int) (f : Int → Int) (hne : xi ≠ []) :
    ∃ b, needPerm (xi.map f) (xi.filter (fun x => decide (f x < 0))).length
        (xi.findIdx (fun x => decide (f x < 0))) = .ok b ∧
      (b = false →
        (∀ x ∈ (xi.drop (xi.findIdx (fun x => decide (f x < 0)))).take
          (xi.filter (fun x => decide (f x < 0))).length, f x < 0) ∧
        ((contracted (xi.map f) 0 = .ok true ∧
          xi = xi.filter (fun x => decide (f x < 0)) ++ xi.filter (fun x => decide (0 ≤ f x))) ∨
         (contracted (xi.map f) 0 = .ok false ∧
          xi = xi.filter (fun x => decide (0 ≤ f x)) ++ xi.filter (fun x => decide (f x < 0))))) := by
  set q : Int → Bool := fun x => decide (f x < 0) with hq
  set u : Int → Bool := fun x => decide (0 ≤ f x) with hu
  have hqu : (fun x => !q x) = u := by funext x; rw [Bool.eq_iff_iff]; simp [hq, hu]
  set p := xi.findIdx q with hp
  have hlen : 0 < xi.length := List.length_pos_of_ne_nil hne
  have h0 : xi[0]? = some xi[0] := List.getElem?_eq_getElem hlen
  have hlast : xi[xi.length - 1]? = some xi[xi.length - 1] := List.getElem?_eq_getElem (by omega)
  have hbefore : ∀ x ∈ xi.take p, q x = false := by
    intro x hx
    obtain ⟨n, hn, rfl⟩ := List.getElem_of_mem hx
    simp only [List.length_take] at hn
    rw [List.getElem_take]
    exact List.not_of_lt_findIdx (p := q) (xs := xi) (i := n) (by omega)
  have hfp : (xi.drop p).filter q = xi.filter q := by
    conv_rhs => rw [← List.take_append_drop p xi]
    rw [List.filter_append]
    have : (xi.take p).filter q = [] := List.filter_eq_nil_iff.2 (fun x hx => by simp [hbefore x hx])
    rw [this, List.nil_append]
  obtain ⟨b, hb, hb'⟩ := contigLoop_spec xi f (xi.filter q).length p (by rw [hfp])
  unfold needPerm
  rw [contracted_map h0, Res.bind_ok, List.length_map, contracted_map hlast]
  by_cases hc0 : f xi[0] < 0
  · refine ⟨b, by simpa [hc0] using hb, fun hf => ⟨hb' hf, Or.inl ⟨by simp [hc0], ?_⟩⟩⟩
    have hp0 : p = 0 := by
      rw [hp]
      cases xi with
      | nil => exact absurd rfl hne
      | cons x xs => simp only [List.getElem_cons_zero] at hc0; simp [List.findIdx_cons, hq, hc0]
    have := hb' hf
    rw [hp0, List.drop_zero] at this
    have := split_front xi q (fun x hx => by simpa [hq] using this x hx)
    rwa [hqu] at this
  · by_cases hc1 : f xi[xi.length - 1] < 0
    · refine ⟨b, by simpa [hc0, hc1] using hb, fun hf => ⟨hb' hf, Or.inr ⟨by simp [hc0], ?_⟩⟩⟩
      have h1 := hb' hf
      -- the part from p on: contracted first, then nothing
      have hs := split_front (xi.drop p) q (fun x hx => by
        rw [hfp] at hx; simpa [hq] using h1 x hx)
      rw [hfp, hqu] at hs
      have hnil : (xi.drop p).filter u = [] := by
        by_contra hne'
        have hl : (xi.drop p).getLast? = some xi[xi.length - 1] := by
          have hpl : p < xi.length := by
            rw [hp]; exact List.findIdx_lt_length_of_exists ⟨_, List.getElem_mem _, by simpa [hq] using hc1⟩
          rw [List.getLast?_drop, if_neg (by omega), List.getLast?_eq_getElem?, hlast]
        rw [hs, List.getLast?_append_of_ne_nil _ hne'] at hl
        have := List.mem_of_getLast? hl
        have := (List.mem_filter.1 this).2
        simp [hu] at this; omega
      have hu' : xi.filter u = xi.take p := by
        conv_lhs => rw [← List.take_append_drop p xi]
        rw [List.filter_append, hnil, List.append_nil, List.filter_eq_self]
        intro x hx
        rw [← hqu]; simp [hbefore x hx]
      rw [hnil, List.append_nil] at hs
      rw [hu', ← hs, List.take_append_drop]
    · exact ⟨true, by simp [hc0, hc1], by simp⟩

end CProps

end Verif.Tensor
