import Verif.Tensor.ContractLemmas

/-!
# Lemmas on the permuting loops of `CProps`
-/

namespace Verif.Tensor

open Range Permutation

namespace CProps

/-- `calcLoop` step for a label that is present. -/
theorem calcLoop_cons (xi : List Int) (l : Int) (hl : l ∈ xi) (t : List Int) (k : Nat) (P : Permutation) :
    calcLoop xi (l :: t) k P = (setFromToI P (findIndex xi l) k).bind (calcLoop xi t (k + 1)) := by
  obtain ⟨j, hj, _, hj'⟩ := findIndex_of_mem hl
  simp only [calcLoop, hj', setFromToI, hj]
  rw [if_neg (by omega), Int.toNat_natCast]

theorem calcLoop_append (xi s t : List Int) (k : Nat) (P : Permutation) :
    calcLoop xi (s ++ t) k P = (calcLoop xi s k P).bind (calcLoop xi t (k + s.length)) := by
  induction s generalizing k P with
  | nil => rfl
  | cons a s ih =>
    simp only [List.cons_append, calcLoop]
    split
    · rfl
    · rename_i i1 _
      cases hx : setFromTo P i1 k with
      | ok Q => simp only [Res.bind_ok]; rw [ih, List.length_cons]; congr 2; omega
      | throw => rfl
      | ub => rfl

theorem nextCon_spec (yi : List Int) (f : Int → Int) (p : Nat) (l : Int) (t : List Int)
    (h : (yi.drop p).filter (fun x => decide (f x < 0)) = l :: t) :
    ∃ p', nextCon (yi.map f) p = .ok p' ∧ yi[p']? = some l ∧
      (yi.drop (p' + 1)).filter (fun x => decide (f x < 0)) = t := by
  unfold nextCon
  rw [← List.map_drop, List.findIdx?_map]
  generalize hd : yi.drop p = d at h
  have key : ∀ (d : List Int), d.filter (fun x => decide (f x < 0)) = l :: t →
      ∃ k, List.findIdx? ((fun x => decide (x < 0)) ∘ f) d = some k ∧ d[k]? = some l ∧
        (d.drop (k + 1)).filter (fun x => decide (f x < 0)) = t := by
    intro d
    induction d with
    | nil => simp
    | cons a d ih =>
      intro h
      by_cases ha : f a < 0
      · rw [List.filter_cons, if_pos (by simpa using ha)] at h
        obtain ⟨rfl, rfl⟩ := List.cons.inj h
        exact ⟨0, by simp [List.findIdx?_cons, ha], by simp, by simp⟩
      · rw [List.filter_cons, if_neg (by simpa using ha)] at h
        obtain ⟨k, h1, h2, h3⟩ := ih h
        exact ⟨k + 1, by simp [List.findIdx?_cons, ha]; exact h1, by simpa using h2, by simpa using h3⟩
  obtain ⟨k, h1, h2, h3⟩ := key d h
  rw [h1]
  refine ⟨p + k, rfl, ?_, ?_⟩
  · rw [← h2, ← hd, List.getElem?_drop]
  · rw [← h3, ← hd, List.drop_drop]; rfl

theorem frontLoop_spec (yi xi : List Int) (f : Int → Int) (n p newi : Nat) (P : Permutation)
    (hn : ((yi.drop p).filter (fun x => decide (f x < 0))).length = n)
    (hsub : ∀ x ∈ yi, f x < 0 → x ∈ xi) :
    frontLoop (yi.map f) yi xi n p newi P =
      calcLoop xi ((yi.drop p).filter (fun x => decide (f x < 0))) newi P := by
  induction n generalizing p newi P with
  | zero => rw [List.length_eq_zero_iff.1 hn]; rfl
  | succ n ih =>
    obtain ⟨l, t, hlt⟩ : ∃ l t, (yi.drop p).filter (fun x => decide (f x < 0)) = l :: t := by
      cases h : (yi.drop p).filter (fun x => decide (f x < 0)) with
      | nil => rw [h] at hn; simp at hn
      | cons l t => exact ⟨l, t, rfl⟩
    obtain ⟨p', h1, h2, h3⟩ := nextCon_spec yi f p l t hlt
    have hl : l ∈ (yi.drop p).filter (fun x => decide (f x < 0)) := by rw [hlt]; simp
    obtain ⟨hl1, hl2⟩ := List.mem_filter.1 hl
    have hlx : l ∈ xi := hsub l (List.mem_of_mem_drop hl1) (by simpa using hl2)
    rw [hlt, calcLoop_cons xi l hlx]
    simp only [frontLoop, h1, Res.bind_ok, h2]
    congr 1
    funext P'
    rw [ih (p' + 1) (newi + 1) P' (by rw [h3]; rw [hlt] at hn; simpa using hn), h3]

theorem frontOwn_spec (yi : List Int) (hnd : yi.Nodup) (f : Int → Int) (n p newi : Nat) (P : Permutation)
    (hn : ((yi.drop p).filter (fun x => decide (f x < 0))).length = n) :
    frontOwn (yi.map f) n p newi P =
      calcLoop yi ((yi.drop p).filter (fun x => decide (f x < 0))) newi P := by
  induction n generalizing p newi P with
  | zero => rw [List.length_eq_zero_iff.1 hn]; rfl
  | succ n ih =>
    obtain ⟨l, t, hlt⟩ : ∃ l t, (yi.drop p).filter (fun x => decide (f x < 0)) = l :: t := by
      cases h : (yi.drop p).filter (fun x => decide (f x < 0)) with
      | nil => rw [h] at hn; simp at hn
      | cons l t => exact ⟨l, t, rfl⟩
    obtain ⟨p', h1, h2, h3⟩ := nextCon_spec yi f p l t hlt
    rw [hlt, calcLoop_cons yi l (List.mem_of_getElem? h2)]
    simp only [frontOwn, h1, Res.bind_ok]
    rw [findIndex_eq_of_get hnd h2, setFromToI, if_neg (by omega), Int.toNat_natCast]
    congr 1
    funext P'
    rw [ih (p' + 1) (newi + 1) P' (by rw [h3]; rw [hlt] at hn; simpa using hn), h3]

theorem uncLoop_spec (xi ci : List Int) (hnd : ci.Nodup) (pre cs : List Int) (hci : ci = pre ++ cs)
    (newi : Nat) (XC : List Int) (P Q : Permutation) (hXC : XC.length = xi.length)
    (hcnt : newi + (cs.filter (· ∈ xi)).length = xi.length)
    (hQ : calcLoop xi (cs.filter (· ∈ xi)) newi P = .ok Q) :
    uncLoop xi cs pre.length newi XC P =
      .ok (XC.take newi ++ (cs.filter (· ∈ xi)).map (findIndex ci), Q) := by
  induction cs generalizing pre newi XC P with
  | nil =>
    simp only [List.filter_nil, calcLoop, Res.ok.injEq] at hQ
    simp only [List.filter_nil, List.length_nil, Nat.add_zero] at hcnt
    simp only [uncLoop, List.filter_nil, List.map_nil, List.append_nil]
    rw [hQ, List.take_of_length_le (by omega)]
  | cons l cs ih =>
    have hci' : ci = (pre ++ [l]) ++ cs := by simpa using hci
    have hk : findIndex ci l = pre.length := findIndex_eq_of_get hnd (by rw [hci]; simp)
    simp only [uncLoop]
    by_cases hl : l ∈ xi
    · have hfc : (l :: cs).filter (· ∈ xi) = l :: cs.filter (· ∈ xi) := by simp [hl]
      rw [hfc] at hQ hcnt ⊢
      simp only [List.length_cons] at hcnt
      rw [calcLoop_cons xi l hl] at hQ
      obtain ⟨P', hP', hQ'⟩ := Res.bind_eq_ok.1 hQ
      obtain ⟨j, hj, _⟩ := findIndex_of_mem hl
      rw [if_neg (by omega), if_pos (by omega), hP', Res.map_ok, Res.bind_ok]
      have e1 : (XC.set newi (pre.length : Int)).take (newi + 1) = XC.take newi ++ [(pre.length : Int)] := by
        apply List.ext_getElem?
        intro n
        rcases Nat.lt_trichotomy n newi with hn | hn | hn
        · rw [List.getElem?_take_of_lt (by omega), List.getElem?_set_ne (by omega),
            List.getElem?_append_left (by simp; omega), List.getElem?_take_of_lt hn]
        · subst hn
          rw [List.getElem?_take_of_lt (by omega), List.getElem?_set_self (by omega),
            List.getElem?_append_right (by simp)]
          have : min n XC.length = n := by omega
          simp [this]
        · rw [List.getElem?_eq_none (by simp; omega), List.getElem?_eq_none (by simp; omega)]
      by_cases hend : newi + 1 = xi.length
      · have hnil : cs.filter (· ∈ xi) = [] := List.length_eq_zero_iff.1 (by omega)
        simp only [hend, if_pos, ↓reduceIte]
        rw [hnil] at hQ' ⊢
        simp only [calcLoop, Res.ok.injEq] at hQ'
        rw [hQ', List.map_cons, hk, List.map_nil, ← e1, List.take_of_length_le (by simp; omega)]
      · simp only [if_neg hend]
        have := ih (pre ++ [l]) hci' (newi + 1) (XC.set newi (pre.length : Int)) P' (by simpa using hXC)
          (by omega) hQ'
        rw [List.length_append, List.length_singleton] at this
        rw [this, e1, List.map_cons, hk]
        simp
    · have hfc : (l :: cs).filter (· ∈ xi) = cs.filter (· ∈ xi) := by simp [hl]
      rw [hfc] at hQ hcnt ⊢
      rw [findIndex_of_notMem hl, if_pos rfl, Res.bind_ok]
      by_cases hend : newi = xi.length
      · have hnil : cs.filter (· ∈ xi) = [] := List.length_eq_zero_iff.1 (by omega)
        simp only [hend, ↓reduceIte]
        rw [hnil] at hQ ⊢
        simp only [calcLoop, Res.ok.injEq] at hQ
        rw [hQ, List.map_nil, List.append_nil, List.take_of_length_le (by omega)]
      · simp only [if_neg hend]
        have := ih (pre ++ [l]) hci' newi XC P hXC hcnt hQ
        rw [List.length_append, List.length_singleton] at this
        exact this

theorem orderLoop_spec (AtoB : List Int) (n p q : Nat) (h : p + n ≤ AtoB.length) :
    ∃ b, orderLoop AtoB n p q = .ok b ∧
      (b = false → ∀ k, k < n → AtoB[p + k]? = some ((q + k : Nat) : Int)) := by
  induction n generalizing p q with
  | zero => exact ⟨false, rfl, by omega⟩
  | succ n ih =>
    have hp : p < AtoB.length := by omega
    simp only [orderLoop, List.getElem?_eq_getElem hp]
    by_cases hj : AtoB[p] ≠ (q : Int)
    · exact ⟨true, by rw [if_pos hj], by simp⟩
    · obtain ⟨b, hb, hb'⟩ := ih (p + 1) (q + 1) (by omega)
      refine ⟨b, by rw [if_neg hj]; exact hb, fun hf k hk => ?_⟩
      cases k with
      | zero => rw [Nat.add_zero, List.getElem?_eq_getElem hp]; simpa using hj
      | succ k =>
        have := hb' hf k (by omega)
        rw [show p + (k + 1) = p + 1 + k by omega, this]; congr 2; omega

end CProps

/-! ### permuting data -/

/-- `P` sends the position of each label in `xs` to its position in `ys`. -/
def LabelPerm {X : Type*} (P : Permutation) (xs ys : List X) : Prop :=
  IsPerm P ∧ P.length = xs.length ∧ xs.length = ys.length ∧
    ∀ (i d : Nat), P[i]? = some d → ys[d]? = xs[i]?

theorem labelPerm_map {X : Type*} {P : Permutation} {xs ys : List X} (h : LabelPerm P xs ys) {α} (g : X → α) :
    ∀ (i d : Nat), P[i]? = some d → (ys.map g)[d]? = (xs.map g)[i]? := by
  intro i d hd
  rw [List.getElem?_map, List.getElem?_map, h.2.2.2 i d hd]

theorem get_of_perm {α} {P : Permutation} (hP : IsPerm P) {r ys : List α} (hr : r.length = P.length)
    (hy : ys.length = P.length)
    (h : ∀ (n d : Nat), P[n]? = some d → r[d]? = ys[d]?) : r = ys := by
  apply List.ext_getElem?
  intro d
  by_cases hd : d < P.length
  · obtain ⟨n, hn, hn'⟩ := List.getElem_of_mem (hP.mem hd)
    exact h n d (by rw [List.getElem?_eq_getElem hn, hn'])
  · rw [List.getElem?_eq_none (by omega), List.getElem?_eq_none (by omega)]

theorem permLoop_eq (R : Range) (P : List Nat) (rb : Range) (h : P.length = R.length) :
    permLoop R P rb = permuteLoop P R rb := by
  induction R generalizing P rb with
  | nil => have : P = [] := by simpa using h
           subst this; rfl
  | cons r R ih =>
    cases P with
    | nil => simp at h
    | cons p P =>
      simp only [permLoop, permuteLoop]; split
      · exact ih P _ (by simpa using h)
      · rfl

theorem permuteExtents_spec (ext : Int → Nat) {P : Permutation} {xs ys : List Int}
    (h : LabelPerm P xs ys) :
    permuteExtents (init (xs.map ext)) P = .ok (init (ys.map ext)) := by
  obtain ⟨hP, hl, hxy, hlab⟩ := h
  have hlen : (init (xs.map ext)).length = xs.length := by
    have := congrArg List.length (extents_init (xs.map ext)); simpa [Range.extents] using this
  unfold permuteExtents
  rw [permLoop_eq _ _ _ (by simp [hlen, hl])]
  obtain ⟨r, e, h1, h2, _⟩ := permuteLoop_spec P ((init (xs.map ext)).map fun r => (⟨r.ind, 0⟩ : IndStr))
    (List.replicate (init (xs.map ext)).length {}) (by simp [hlen, hl]) hP.nodup
    (fun d hd => by have := hP.lt hd; simp [hlen]; omega)
  rw [e, Res.map_ok, computeStrides_eq]
  congr 2
  apply get_of_perm hP
    (by rw [Range.extents, List.length_map, h1, List.length_replicate, hlen, hl]) (by simp; omega)
  intro n d hd
  have he : (init (xs.map ext)).map (·.ind) = xs.map ext := extents_init _
  have h3 : (Range.extents r)[d]? = (xs.map ext)[n]? := by
    have := h2 n d hd
    have he' : (xs.map ext)[n]? = ((init (xs.map ext)).map (·.ind))[n]? := by rw [he]
    rw [Range.extents, List.getElem?_map, this, he', List.getElem?_map, List.getElem?_map,
      Option.map_map]
    rfl
  rw [h3, ← labelPerm_map ⟨hP, hl, hxy, hlab⟩ ext n d hd]

theorem valid_map {X : Type*} {ext : X → Nat} {ρ : X → Nat} {xs : List X} (h : ∀ x ∈ xs, ρ x < ext x) :
    Valid (xs.map ext) (xs.map ρ) := by
  induction xs with
  | nil => exact .nil
  | cons x xs ih => exact .cons (h x (by simp)) (ih fun y hy => h y (by simp [hy]))

theorem exists_rho (ext : Int → Nat) {xs : List Int} (hnd : xs.Nodup) {i : List Nat}
    (h : Valid (xs.map ext) i) : ∃ ρ : Int → Nat, xs.map ρ = i ∧ ∀ x ∈ xs, ρ x < ext x := by
  induction xs generalizing i with
  | nil => cases h; exact ⟨fun _ => 0, rfl, by simp⟩
  | cons x xs ih =>
    cases h with
    | @cons a _ is _ ha hv =>
      obtain ⟨hx, hnd'⟩ := List.nodup_cons.1 hnd
      obtain ⟨ρ, h1, h2⟩ := ih hnd' hv
      refine ⟨fun y => if y = x then a else ρ y, ?_, ?_⟩
      · simp only [List.map_cons, if_pos, List.cons.injEq, true_and]
        rw [← h1]
        apply List.map_congr_left
        intro y hy
        rw [if_neg]; rintro rfl; exact hx hy
      · intro y hy
        rcases List.mem_cons.1 hy with rfl | hy
        · simpa using ha
        · have : y ≠ x := fun e => hx (e ▸ hy)
          simp only [if_neg this]; exact h2 y hy

section
variable {K : Type*}

/-- Element-wise transform from a permuted column-major tensor into a column-major one. -/
theorem runTransform_perm {X α β : Type*} (op : α → β → β) (ext : X → Nat) {P : Permutation}
    {xs ys : List X} (h : LabelPerm P xs ys) (hpos : ∀ x ∈ ys, 0 < ext x)
    (hmax : ((ys.map ext).prod : Int) ≤ offMax) (fuel : Nat) (hf : (ys.map ext).prod < fuel)
    (m : Int → α) (mt : Int → β) :
    ∃ V, permuteRange (init (xs.map ext)) P = .ok V ∧
    ∃ m', runTransform fuel op V (init (ys.map ext)) m mt = some (.ok m') ∧
      (∀ ρ : X → Nat, (∀ x ∈ ys, ρ x < ext x) →
        m' (rank (ys.map ext) (ys.map ρ) : Nat) =
          op (m (rank (xs.map ext) (xs.map ρ) : Nat)) (mt (rank (ys.map ext) (ys.map ρ) : Nat))) ∧
      (∀ a : Int, (a < 0 ∨ ((ys.map ext).prod : Int) ≤ a) → m' a = mt a) := by
  have hlen : (init (xs.map ext)).length = xs.length := by
    have := congrArg List.length (extents_init (xs.map ext)); simpa [Range.extents] using this
  obtain ⟨V, hV, hV1, hV2, hV3⟩ := C17_permute_view (init (xs.map ext)) P h.1 (by rw [hlen, h.2.1])
  have hVe : Range.extents V = ys.map ext := by
    apply get_of_perm h.1 (by simp [Range.extents, hV1, hlen, h.2.1]) (by simp [h.2.1, h.2.2.1])
    intro n d hd
    rw [labelPerm_map h ext n d hd]
    have he : (init (xs.map ext)).map (·.ind) = xs.map ext := extents_init _
    simp only [Range.extents, List.getElem?_map, hV2 n d hd]
    rw [← List.getElem?_map, he, List.getElem?_map]
  have hinj : ∀ i j, Valid (Range.extents (init (ys.map ext))) i →
      Valid (Range.extents (init (ys.map ext))) j →
      addr (init (ys.map ext)) i = addr (init (ys.map ext)) j → i = j := by
    intro i j hi hj hij
    rw [extents_init] at hi hj
    rw [addr_init (valid_length hi), addr_init (valid_length hj)] at hij
    rw [← unrank_rank hi, ← unrank_rank hj, hij]
  obtain ⟨l, hl, h1, h2⟩ := C17_transform op V (init (ys.map ext)) (by rw [hVe, extents_init])
    (by rw [hVe]; intro d hd; obtain ⟨x, hx, rfl⟩ := List.mem_map.1 hd; exact hpos x hx)
    (by rw [hVe]; exact hmax) hinj fuel (by rw [hVe]; exact hf) m mt
  refine ⟨V, hV, applyPairs op m l mt, by unfold runTransform; rw [hl]; rfl, ?_, ?_⟩
  · intro ρ hρ
    have hv : Valid (ys.map ext) (ys.map ρ) := valid_map hρ
    have := h1 (ys.map ρ) (by rw [hVe]; exact hv)
    rw [addr_init (valid_length hv)] at this
    rw [this, hV3 (xs.map ρ) (ys.map ρ) (by simp [hlen]) (by simp [hlen, h.2.2.1])
      (fun n d hd => labelPerm_map h ρ n d hd), addr_init (by simp)]
  · intro a ha
    apply h2
    intro i hi he
    rw [hVe] at hi
    rw [addr_init (valid_length hi)] at he
    have := rank_lt hi
    omega

end

end Verif.Tensor
