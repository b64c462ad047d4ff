import Verif.Tensor.RangeLemmas

/-!
# Lemmas on `GCounter`
-/

namespace Verif.Tensor.GCounter

/-- Values `first[j] + digit j`. -/
def vals (fs : List Int) (is : List Nat) : List Int := List.zipWith (fun (f : Int) (i : Nat) => f + (i : Int)) fs is

/-- Final values `first[j] + extent j - 1`. -/
def lasts (fs : List Int) (ds : List Nat) : List Int :=
  List.zipWith (fun (f : Int) (d : Nat) => f + (d : Int) - 1) fs ds

/-- The state in which the counter reports the `k`-th multi-index, for initial values `fs` and
extents `ds`. -/
def stateAt (fs : List Int) (ds : List Nat) (k : Nat) : GCounter :=
  ⟨fs, lasts fs ds, vals fs (unrank ds k), k⟩

open RIter in
theorem carry_spec (fs : List Int) (ds : List Nat) (hl : fs.length = ds.length)
    (hpos : ∀ d ∈ ds, 0 < d) (f0 x : Int) (k : Nat) (hk : k < ds.prod) :
    ∃ q, carry f0 x fs (lasts fs ds) (vals fs (unrank ds k)) = .ok q ∧
      (k + 1 < ds.prod → q = (f0 :: vals fs (unrank ds (k + 1)), true)) ∧
      (k + 1 = ds.prod → q.2 = false ∧ q.1 ≠ []) := by
  induction ds generalizing fs f0 x k with
  | nil =>
    cases fs with
    | nil => exact ⟨_, rfl, by simp, fun _ => ⟨rfl, by simp⟩⟩
    | cons _ _ => simp at hl
  | cons d ds ih =>
    cases fs with
    | nil => simp at hl
    | cons f fs =>
      have hd : 0 < d := hpos _ (by simp)
      simp only [List.prod_cons] at hk ⊢
      have hq : k / d < ds.prod := Nat.div_lt_of_lt_mul hk
      simp only [lasts, vals, unrank, List.zipWith_cons_cons, carry]
      by_cases hlt : k % d + 1 < d
      · have hs := div_mod_succ_lt hd hlt
        rw [if_pos (by omega)]
        refine ⟨_, rfl, fun _ => ?_, fun h => ?_⟩
        · rw [hs.1, hs.2]
          congr 3
          push_cast; ring
        · exfalso
          have e := Nat.mod_add_div k d
          have : d * (k / d) + d ≤ d * ds.prod := by
            rw [← Nat.mul_succ]; exact Nat.mul_le_mul_left _ hq
          omega
      · have hmod := Nat.mod_lt k hd
        have heq : k % d + 1 = d := by omega
        have hs := div_mod_succ_eq hd heq
        rw [if_neg (by omega)]
        obtain ⟨q, e, h1, h2⟩ := ih fs (by simpa using hl) (fun d hd' => hpos d (by simp [hd'])) f
          (f + ((k % d : Nat) : Int) + 1) (k / d) hq
        have e' := e
        unfold lasts vals at e'
        rw [e']
        have hN : k + 1 = d * (k / d + 1) := by
          have := Nat.mod_add_div k d
          rw [Nat.mul_succ]; omega
        refine ⟨_, rfl, fun h => ?_, fun h => ?_⟩
        · rw [hN] at h
          have := h1 (Nat.lt_of_mul_lt_mul_left h)
          rw [this, hs.1, hs.2]
          simp [vals]
        · rw [hN] at h
          exact ⟨(h2 (Nat.eq_of_mul_eq_mul_left hd h)).1, by simp⟩

open RIter in
theorem incr_spec (fs : List Int) (ds : List Nat) (hl : fs.length = ds.length) (hne : ds ≠ [])
    (hpos : ∀ d ∈ ds, 0 < d) (k : Nat) (hk : k < ds.prod) :
    ∃ g, incr (stateAt fs ds k) = .ok g ∧
      (k + 1 < ds.prod → g = stateAt fs ds (k + 1)) ∧
      (k + 1 = ds.prod → g.notDone = .ok false) := by
  cases ds with
  | nil => exact absurd rfl hne
  | cons d ds =>
    cases fs with
    | nil => simp at hl
    | cons f fs =>
      have hd : 0 < d := hpos _ (by simp)
      simp only [List.prod_cons] at hk ⊢
      have hq : k / d < ds.prod := Nat.div_lt_of_lt_mul hk
      simp only [stateAt, lasts, vals, unrank, List.zipWith_cons_cons, incr]
      by_cases hlt : k % d + 1 < d
      · have hs := div_mod_succ_lt hd hlt
        rw [if_neg (by omega)]
        refine ⟨_, rfl, fun _ => ?_, fun h => ?_⟩
        · rw [hs.1, hs.2]
          congr 2
          push_cast; ring
        · exfalso
          have e := Nat.mod_add_div k d
          have : d * (k / d) + d ≤ d * ds.prod := by
            rw [← Nat.mul_succ]; exact Nat.mul_le_mul_left _ hq
          omega
      · have hmod := Nat.mod_lt k hd
        have heq : k % d + 1 = d := by omega
        have hs := div_mod_succ_eq hd heq
        rw [if_pos (by omega)]
        obtain ⟨q, e, h1, h2⟩ := carry_spec fs ds (by simpa using hl) (fun d hd' => hpos d (by simp [hd'])) f
          (f + ((k % d : Nat) : Int) + 1) (k / d) hq
        have e' := e
        unfold lasts vals at e'
        rw [e']
        have hN : k + 1 = d * (k / d + 1) := by
          have := Nat.mod_add_div k d
          rw [Nat.mul_succ]; omega
        refine ⟨_, rfl, fun h => ?_, fun h => ?_⟩
        · rw [hN] at h
          have := h1 (Nat.lt_of_mul_lt_mul_left h)
          rw [this, hs.1, hs.2]
          simp [vals]
        · rw [hN] at h
          obtain ⟨h3, h4⟩ := h2 (Nat.eq_of_mul_eq_mul_left hd h)
          obtain ⟨l, b⟩ := q
          simp only at h3 h4 ⊢
          subst h3
          cases l with
          | nil => exact absurd rfl h4
          | cons y ys => simp [notDone]

theorem notDone_stateAt (fs : List Int) (ds : List Nat) (hl : fs.length = ds.length) (hne : ds ≠ [])
    (k : Nat) : (stateAt fs ds k).notDone = .ok true := by
  cases ds with
  | nil => exact absurd rfl hne
  | cons d ds =>
    cases fs with
    | nil => simp at hl
    | cons f fs =>
      simp [stateAt, vals, unrank, notDone]
      omega

theorem forEach_spec (fs : List Int) (ds : List Nat) (hl : fs.length = ds.length) (hne : ds ≠ [])
    (hpos : ∀ d ∈ ds, 0 < d) (n k fuel : Nat)
    (hn : n + k = ds.prod) (h1 : 1 ≤ n) (hf : n < fuel) :
    forEach fuel (stateAt fs ds k) = some (.ok ((List.range' k n).map (stateAt fs ds))) := by
  induction n generalizing k fuel with
  | zero => omega
  | succ n ih =>
    obtain ⟨fuel, rfl⟩ : ∃ f, fuel = f + 1 := ⟨fuel - 1, by omega⟩
    have hk : k < ds.prod := by omega
    obtain ⟨s, e, ha, hb⟩ := incr_spec fs ds hl hne hpos k hk
    rw [forEach, notDone_stateAt fs ds hl hne k]
    simp only [e]
    by_cases hn0 : n = 0
    · subst hn0
      have := hb (by omega)
      obtain ⟨fuel, rfl⟩ : ∃ f, fuel = f + 1 := ⟨fuel - 1, by omega⟩
      rw [forEach, this]
      rfl
    · rw [ha (by omega), ih (k + 1) fuel (by omega) (by omega) (by omega)]
      simp [List.range'_succ]

end Verif.Tensor.GCounter
