import Verif.Decomp.QrQNProps
import Verif.Decomp.SvdRefC93

/-!
# C95: the QR decomposition of a matrix with quantum numbers
-/

namespace Verif.QrQN

open Verif.SvdRef (rrows)
open Matrix

variable {G : Type*} [AddCommGroup G] [DecidableEq G] {𝕜 : Type*} [RCLike 𝕜]

/-! ### What is assumed and what is claimed -/

/-- `Q R` is a QR decomposition of a matrix with `k` columns in `Q`. -/
structure IsQr (nr nc k : ℕ) (M Q R : ℕ → ℕ → 𝕜) : Prop where
  orth : ∀ c c', c < k → c' < k →
    ∑ x ∈ Finset.range nr, star (Q x c) * Q x c' = if c = c' then 1 else 0
  eq : ∀ x y, x < nr → y < nc → M x y = ∑ c ∈ Finset.range k, Q x c * R c y
  tri : ∀ c y, c < k → y < nc → y < c → R c y = 0

/-- What C93 proves of `QR`. -/
def Method.Right (qr : Method 𝕜) (complete : Bool) : Prop :=
  ∀ nr nc M Q R, qr nr nc M = some (Q, R) → IsQr nr nc (rrows complete nr nc) M Q R

/-- A matrix with quantum numbers, as it comes from multiplication with two combiners: the sectors of
each index are distinct (C27), every block has the flux of the tensor, and no block occurs twice. -/
structure Input (qI rI : Ind G) (div : G) (bs : List (Blk 𝕜)) : Prop where
  dq : qI.dir = 1 ∨ qI.dir = -1
  dr : rI.dir = 1 ∨ rI.dir = -1
  q_inj : ∀ i j, i < qI.nblock → j < qI.nblock → qI.qn i = qI.qn j → i = j
  r_inj : ∀ i j, i < rI.nblock → j < rI.nblock → rI.qn i = rI.qn j → i = j
  lt1 : ∀ B ∈ bs, B.i1 < qI.nblock
  lt2 : ∀ B ∈ bs, B.i2 < rI.nblock
  flux : ∀ B ∈ bs, qI.dir • qI.qn B.i1 + rI.dir • rI.qn B.i2 = div
  nodup : (bs.map fun B => (B.i1, B.i2)).Nodup

/-- The cases which the code treats correctly. `UpperTriangular`: ordering the blocks by column sector
is a permutation that is its own inverse. Not `UpperTriangular`: no block has more rows than columns. -/
def Order (ut complete : Bool) (qI rI : Ind G) (bs : List (Blk 𝕜)) : Prop :=
  (ut = true ∧ ∀ b, b < bs.length → rank bs (rank bs b) = b) ∨
    (ut = false ∧ complete = true ∧ ∀ B ∈ bs, qI.size B.i1 ≤ rI.size B.i2)

/-- Positions of an index: sector and place in the sector. -/
abbrev Ind.Pos (I : Ind G) := Σ i : Fin I.nblock, Fin (I.size i)

/-- The place of a position in the whole index. -/
def Ind.place (I : Ind G) (r : I.Pos) : ℕ := ((I.secs.take r.1).map (·.2)).sum + r.2

/-- The matrix that the blocks of a tensor show. -/
def mat (I J : Ind G) (s : Store 𝕜) : Matrix I.Pos J.Pos 𝕜 :=
  Matrix.of fun r c => s r.1 c.1 (r.2 + c.2 * I.size r.1)

/-- The matrix to be decomposed. -/
def tens (qI rI : Ind G) (bs : List (Blk 𝕜)) : Matrix qI.Pos rI.Pos 𝕜 :=
  Matrix.of fun r c =>
    match bs.find? fun B => B.i1 = r.1.val ∧ B.i2 = c.1.val with
    | some B => B.M r.2 c.2
    | none => 0

/-! ### Preparation -/

omit [DecidableEq G] in
theorem Input.fst {qI rI : Ind G} {div : G} {bs : List (Blk 𝕜)} (h : Input qI rI div bs) :
    (bs.map (·.i1)).Nodup ∧ (bs.map (·.i2)).Nodup := by
  have key : ∀ {d : ℤ} {a b : G}, (d = 1 ∨ d = -1) → d • a = d • b → a = b := by
    rintro d a b (rfl | rfl) h
    · simpa using h
    · simpa using h
  have hn := h.nodup
  rw [List.Nodup, List.pairwise_map] at hn
  constructor
  · rw [List.Nodup, List.pairwise_map]
    refine hn.imp_of_mem ?_
    intro a b ha hb hab e
    apply hab
    have := (h.flux a ha).trans (h.flux b hb).symm
    rw [e] at this
    have := h.r_inj _ _ (h.lt2 a ha) (h.lt2 b hb) (key h.dr (add_left_cancel this))
    rw [e, this]
  · rw [List.Nodup, List.pairwise_map]
    refine hn.imp_of_mem ?_
    intro a b ha hb hab e
    apply hab
    have := (h.flux a ha).trans (h.flux b hb).symm
    rw [e] at this
    have := h.q_inj _ _ (h.lt1 a ha) (h.lt1 b hb) (key h.dq (add_right_cancel this))
    rw [e, this]

omit [DecidableEq G] in
theorem factors_ok {qr : Method 𝕜} {complete : Bool} {qI rI : Ind G} :
    ∀ {bs : List (Blk 𝕜)} {fs}, factors qr complete qI rI bs = .ok fs →
      fs.length = bs.length ∧ ∀ p ∈ bs.zip fs, p.2.k = rrows complete (qI.size p.1.i1) (rI.size p.1.i2) ∧
        qr (qI.size p.1.i1) (rI.size p.1.i2) p.1.M = some (p.2.Q, p.2.R)
  | [], fs, h => by
    simp only [factors, Res.ok.injEq] at h
    subst h
    simp
  | B :: bs, fs, h => by
    unfold factors at h
    split at h
    · cases h
    · rename_i Q R e
      cases h2 : factors qr complete qI rI bs with
      | throw => simp [h2, Res.map] at h
      | ub => simp [h2, Res.map] at h
      | ok fs' =>
        simp only [h2, Res.map, Res.ok.injEq] at h
        subst h
        obtain ⟨ih1, ih2⟩ := factors_ok h2
        refine ⟨by simp [ih1], ?_⟩
        intro p hp
        rw [List.zip_cons_cons, List.mem_cons] at hp
        rcases hp with rfl | hp
        · exact ⟨rfl, e⟩
        · exact ih2 p hp

/-- What is known of blocks and factors together. -/
structure Good (ut complete : Bool) (qI rI : Ind G) (div : G) (ps : List (Blk 𝕜 × Fac 𝕜)) : Prop where
  n1 : (ps.map fun p => p.1.i1).Nodup
  n2 : (ps.map fun p => p.1.i2).Nodup
  k : ∀ p ∈ ps, p.2.k = rrows complete (qI.size p.1.i1) (rI.size p.1.i2)
  lt1 : ∀ p ∈ ps, p.1.i1 < qI.nblock
  lt2 : ∀ p ∈ ps, p.1.i2 < rI.nblock
  flux : ∀ p ∈ ps, qI.dir • qI.qn p.1.i1 + rI.dir • rI.qn p.1.i2 = div
  ord : Order ut complete qI rI (ps.map (·.1))

/-- Where block `t` goes. -/
def pos (ut : Bool) (qI rI : Ind G) (ps : List (Blk 𝕜 × Fac 𝕜)) (t : ℕ) : ℕ := num ut (indLiq qI rI ps) t

section
variable {ut complete : Bool} {qI rI : Ind G} {div : G} {ps : List (Blk 𝕜 × Fac 𝕜)}

omit [DecidableEq G]

theorem main_at (h : Good ut complete qI rI div ps) {t : ℕ} {p} (hp : ps[t]? = some p) :
    (mainCols ut qI rI ps)[pos ut qI rI ps t]? = some ⟨p.1.i1, 0, min p.2.k (rI.size p.1.i2)⟩ := by
  have ht : t < ps.length := (List.getElem?_eq_some_iff.mp hp).1
  rcases h.ord with ⟨rfl, hr⟩ | ⟨rfl, rfl, hw⟩
  · have e : pos true qI rI ps t = rank (ps.map (·.1)) t :=
      srt_num qI rI h.n2 (by simpa using hr) ht
    rw [e]
    simp only [mainCols, if_true]
    rw [List.getElem?_map, srt_at qI rI h.n2 hp]
    simp [entry, hp]
  · have e : pos false qI rI ps t = t := rfl
    rw [e]
    simp only [mainCols, Bool.false_eq_true, if_false]
    rw [List.getElem?_map, hp]
    have hm := List.mem_of_getElem? hp
    have hk := h.k p hm
    have := hw p.1 (List.mem_map.mpr ⟨p, hm, rfl⟩)
    have hk : p.2.k = qI.size p.1.i1 := by rw [hk]; unfold rrows; split <;> simp
    rw [Option.map_some, hk, min_eq_left this]

theorem pos_onto (h : Good ut complete qI rI div ps) {n : ℕ} (hn : n < ps.length) :
    ∃ t, t < ps.length ∧ pos ut qI rI ps t = n := by
  rcases h.ord with ⟨rfl, hr⟩ | ⟨rfl, rfl, hw⟩
  · have h1 : rank (ps.map (·.1)) n < ps.length := by
      have := rank_lt (bs := ps.map (·.1)) (b := n) (by simpa using hn)
      simpa using this
    refine ⟨_, h1, ?_⟩
    have e : pos true qI rI ps (rank (ps.map (·.1)) n) = rank (ps.map (·.1)) (rank (ps.map (·.1)) n) :=
      srt_num qI rI h.n2 (by simpa using hr) h1
    rw [e]
    exact hr n (by simpa using hn)
  · exact ⟨n, hn, rfl⟩

theorem fill_iff (h : Good ut complete qI rI div ps) {p} (hp : p ∈ ps) (huc : ut = true ∧ complete = true) :
    fillOf ut complete qI rI p = qI.size p.1.i1 - rI.size p.1.i2 := by
  have hk := h.k p hp
  unfold fillOf
  rw [if_pos huc, hk, huc.2]
  unfold rrows
  split
  · omega
  · simp; omega

theorem fill_at (h : Good ut complete qI rI div ps) {t : ℕ} {p} (hp : ps[t]? = some p)
    (hf : 0 < fillOf ut complete qI rI p) :
    (fillCols ut complete qI rI ps)[fills ut complete qI rI (ps.take t)]? =
      some ⟨p.1.i1, min p.2.k (rI.size p.1.i2), fillOf ut complete qI rI p⟩ := by
  have huc : ut = true ∧ complete = true := by
    unfold fillOf at hf
    split at hf
    · assumption
    · omega
  have hm := List.mem_of_getElem? hp
  have hfe := fill_iff h hm huc
  have ht : tall qI rI p = true := by
    unfold tall
    rw [hfe] at hf
    simp; omega
  have hc : fills ut complete qI rI (ps.take t) = (ps.take t).countP (tall qI rI) := by
    unfold fills
    apply List.countP_congr
    intro q hq
    have := fill_iff h (List.mem_of_mem_take hq) huc
    rw [this]
    simp [tall]
  have hfa := filter_at (tall qI rI) ps hp ht
  unfold fillCols
  rw [if_pos (by simp [huc]), List.getElem?_map, hc, hfa, hfe]
  rfl

theorem fills_le (h : Good ut complete qI rI div ps) :
    fills ut complete qI rI ps = (fillCols ut complete qI rI ps).length := by
  by_cases huc : ut = true ∧ complete = true
  · unfold fillCols fills
    rw [if_pos (by simp [huc]), List.length_map, ← List.countP_eq_length_filter]
    apply List.countP_congr
    intro q hq
    have := fill_iff h hq huc
    rw [this]
    simp [tall]
  · unfold fillCols fills
    rw [if_neg (by simpa using huc), List.length_nil, List.countP_eq_zero]
    intro q _
    simp [fillOf, huc]

theorem cols_main {n : ℕ} {c} (h : (mainCols ut qI rI ps)[n]? = some c) :
    (cols ut complete qI rI ps)[n]? = some c := by
  have := (List.getElem?_eq_some_iff.mp h).1
  unfold cols
  rw [List.append_assoc, List.getElem?_append_left this, h]

theorem cols_fill {n : ℕ} {c} (h : (fillCols ut complete qI rI ps)[n]? = some c) :
    (cols ut complete qI rI ps)[n + ps.length]? = some c := by
  have h1 := (List.getElem?_eq_some_iff.mp h).1
  have h2 := mainCols_length ut qI rI ps
  unfold cols
  rw [List.append_assoc, List.getElem?_append_right (by omega), List.getElem?_append_left (by omega), h2,
    Nat.add_sub_cancel, h]

theorem cols_zero {n : ℕ} {c} (h : (zeroCols complete qI ps)[n]? = some c) :
    (cols ut complete qI rI ps)[(fillCols ut complete qI rI ps).length + n + ps.length]? = some c := by
  have h2 := mainCols_length ut qI rI ps
  unfold cols
  rw [List.getElem?_append_right (by rw [List.length_append]; omega), List.length_append, h2, ← h]
  congr 1
  omega

/-- Every group of columns is of one of three kinds. -/
theorem cols_cases {n : ℕ} {c} (h : (cols ut complete qI rI ps)[n]? = some c) :
    (n < ps.length ∧ (mainCols ut qI rI ps)[n]? = some c) ∨
    (∃ j, n = j + ps.length ∧ (fillCols ut complete qI rI ps)[j]? = some c) ∨
    ∃ j, n = (fillCols ut complete qI rI ps).length + j + ps.length ∧ (zeroCols complete qI ps)[j]? = some c := by
  have h2 := mainCols_length ut qI rI ps
  unfold cols at h
  rw [List.append_assoc] at h
  by_cases h3 : n < ps.length
  · left
    rw [List.getElem?_append_left (by omega)] at h
    exact ⟨h3, h⟩
  · right
    rw [List.getElem?_append_right (by omega), h2] at h
    by_cases h4 : n - ps.length < (fillCols ut complete qI rI ps).length
    · left
      rw [List.getElem?_append_left h4] at h
      exact ⟨_, by omega, h⟩
    · right
      rw [List.getElem?_append_right (by omega)] at h
      exact ⟨_, by omega, h⟩

theorem secs_at {L : Ind G} (hL : L.secs = liq ut complete qI rI ps) {n : ℕ} {c}
    (h : (cols ut complete qI rI ps)[n]? = some c) :
    n < L.nblock ∧ L.qn n = qI.qn c.own ∧ L.size n = c.w := by
  have e : L.secs[n]? = some (qI.qn c.own, c.w) := by
    rw [hL, liq_cols, List.getElem?_map, h]
    rfl
  refine ⟨(List.getElem?_eq_some_iff.mp e).1, ?_, ?_⟩
  · simp [Ind.qn, e]
  · simp [Ind.size, e]

end

section
variable {ut complete : Bool} {qI rI : Ind G} {div : G} {ps : List (Blk 𝕜 × Fac 𝕜)}

theorem exQ_at {L : Ind G} (hL : L.secs = liq ut complete qI rI ps) (hd : L.dir = qI.dir) {n : ℕ} {c}
    (h : (cols ut complete qI rI ps)[n]? = some c) (hlt : c.own < qI.nblock) : exQ qI L c.own n = true := by
  obtain ⟨h1, h2, -⟩ := secs_at hL h
  unfold exQ
  rw [hd, h2]
  simp [h1, hlt]

theorem steps (h : Good ut complete qI rI div ps) {L : Ind G} (hL : L.secs = liq ut complete qI rI ps)
    (hd : L.dir = qI.dir) {t : ℕ} {p} (hp : ps[t]? = some p) :
    StepOK ut complete qI rI L div (pos ut qI rI ps t) (fills ut complete qI rI (ps.take t) + ps.length) p := by
  have hm := List.mem_of_getElem? hp
  have h1 := cols_main (complete := complete) (main_at h hp)
  obtain ⟨a1, a2, a3⟩ := secs_at hL h1
  refine ⟨exQ_at hL hd h1 (h.lt1 p hm), a3.symm, ?_, ?_, ?_, ?_⟩
  · intro _
    have := (List.getElem?_eq_some_iff.mp (main_at h hp)).1
    rw [mainCols_length] at this
    omega
  · intro hf
    exact exQ_at hL hd (cols_fill (fill_at h hp hf)) (h.lt1 p hm)
  · intro hf
    exact (secs_at hL (cols_fill (fill_at h hp hf))).2.2.symm
  · unfold exR
    rw [a2, hd]
    simp [a1, h.lt2 p hm, h.flux p hm]

/-- The unitary matrix of a row sector. -/
def W (ps : List (Blk 𝕜 × Fac 𝕜)) (i : ℕ) : ℕ → ℕ → 𝕜 :=
  match ps.find? fun p => p.1.i1 = i with
  | some p => p.2.Q
  | none => fun x c => if x = c then 1 else 0

omit [DecidableEq G] [AddCommGroup G] in
theorem find_unique {f : Blk 𝕜 × Fac 𝕜 → ℕ} (hn : (ps.map f).Nodup) {p} (hp : p ∈ ps) :
    ps.find? (fun q => f q = f p) = some p := by
  induction ps with
  | nil => simp at hp
  | cons q ps ih =>
    rw [List.map_cons, List.nodup_cons] at hn
    rw [List.mem_cons] at hp
    rcases hp with rfl | hp
    · simp
    · have hne : ¬ f q = f p := fun e => hn.1 (e ▸ List.mem_map.mpr ⟨p, hp, rfl⟩)
      rw [List.find?_cons_of_neg (by simpa using hne)]
      exact ih hn.2 hp

omit [DecidableEq G] in
theorem W_blk (h : Good ut complete qI rI div ps) {p} (hp : p ∈ ps) : W ps p.1.i1 = p.2.Q := by
  unfold W
  rw [find_unique (f := fun p => p.1.i1) h.n1 hp]

omit [DecidableEq G] [AddCommGroup G] in
theorem W_none {i : ℕ} (hi : ∀ p ∈ ps, p.1.i1 ≠ i) :
    W ps i = fun x c => if x = c then (1 : 𝕜) else 0 := by
  unfold W
  rw [List.find?_eq_none.mpr (by intro p hp; simpa using hi p hp)]

omit [DecidableEq G] in
theorem mem_zerob {i : ℕ} : i ∈ zerob qI (ps.map (·.1)) ↔ i < qI.nblock ∧ ∀ p ∈ ps, p.1.i1 ≠ i := by
  unfold zerob
  simp only [List.mem_filter, List.mem_range, Bool.not_eq_true', List.contains_eq_mem, decide_eq_false_iff_not,
    List.mem_map]
  refine and_congr_right fun _ => ?_
  constructor
  · intro h p hp e
    exact h ⟨p.1, ⟨p, hp, rfl⟩, e⟩
  · rintro h ⟨B, ⟨p, hp, rfl⟩, e⟩
    exact h p hp e

/-- What the columns of `Q` hold when the loops are done. -/
theorem run (h : Good ut complete qI rI div ps) {L : Ind G} (hL : L.secs = liq ut complete qI rI ps)
    (hd : L.dir = qI.dir) :
    ∃ (Q R : Store 𝕜) (e : ℕ),
      (loop ut complete qI rI L div (indLiq qI rI ps) ps.length ps 0 (fun _ _ _ => 0, fun _ _ _ => 0, 0)).bind
        (fun s => (if complete then zeros qI L ps.length (zerob qI (ps.map (·.1))) (s.1, s.2.2) else .ok (s.1, s.2.2)).map
          fun Qe => ((Qe.1, s.2.1, Qe.2) : Store 𝕜 × Store 𝕜 × ℕ)) = .ok (Q, R, e) ∧
      (∀ n c, (cols ut complete qI rI ps)[n]? = some c → ∀ i, i < qI.nblock → Q i n =
        if i = c.own then filled (qI.size i) c.w (fun x k => W ps i x (c.base + k)) else fun _ => 0) ∧
      (∀ i, (∀ p ∈ ps, p.1.i2 ≠ i) → ∀ n, R n i = fun _ => 0) ∧
      ∀ t p, ps[t]? = some p → ∀ n, R n p.1.i2 = colR rI (pos ut qI rI ps t) p n := by
  obtain ⟨Q, R, e1, hQ, hR, hb⟩ := loop_ok (ut := ut) (complete := complete) (qI := qI) (rI := rI) (L := L)
    (div := div) (srt := indLiq qI rI ps) (N := ps.length) ps 0 (fun _ _ _ => 0, fun _ _ _ => 0, 0) h.n1 h.n2
    (by simp) (by simp) (by
      intro t p hp
      have := steps h hL hd hp
      simpa [pos] using this)
  simp only [Nat.zero_add] at e1 hb
  -- the rows of `Q` after the first loop, by columns
  have key : ∀ n c, (cols ut complete qI rI ps)[n]? = some c → ∀ p ∈ ps, Q p.1.i1 n =
      if p.1.i1 = c.own then filled (qI.size p.1.i1) c.w (fun x k => W ps p.1.i1 x (c.base + k))
      else fun _ => 0 := by
    intro n c hc p hp
    obtain ⟨t, ht⟩ := List.mem_iff_getElem?.mp hp
    rw [(hb t p ht).1 n, W_blk h hp]
    have hpt : num ut (indLiq qI rI ps) t = pos ut qI rI ps t := rfl
    rw [hpt]
    have hmt := main_at h ht
    have hmlt : pos ut qI rI ps t < ps.length := by
      have := (List.getElem?_eq_some_iff.mp hmt).1
      rwa [mainCols_length] at this
    have hflt : 0 < fillOf ut complete qI rI p →
        fills ut complete qI rI (ps.take t) < (fillCols ut complete qI rI ps).length := fun hf =>
      (List.getElem?_eq_some_iff.mp (fill_at h ht hf)).1
    unfold rowQ
    rcases cols_cases hc with ⟨hn, hm⟩ | ⟨j, rfl, hj⟩ | ⟨j, rfl, hj⟩
    · rw [if_neg (by omega)]
      by_cases hnt : n = pos ut qI rI ps t
      · subst hnt
        rw [hmt] at hm
        simp only [Option.some.injEq] at hm
        subst hm
        simp only [if_true, Nat.zero_add]
      · rw [if_neg hnt]
        obtain ⟨t', ht', e'⟩ := pos_onto h hn
        have hp' := List.getElem?_eq_getElem ht'
        have hm' := main_at h hp'
        rw [e', hm] at hm'
        simp only [Option.some.injEq] at hm'
        rw [if_neg]
        intro e2
        rw [hm'] at e2
        simp only at e2
        apply hnt
        have : t = t' := by
          have l1 : t < ps.length := (List.getElem?_eq_some_iff.mp ht).1
          have := (List.nodup_iff_injective_get.mp h.n1)
          have a : (ps.map fun p => p.1.i1).get ⟨t, by simpa using l1⟩ =
              (ps.map fun p => p.1.i1).get ⟨t', by simpa using ht'⟩ := by
            have l2 : ps[t] = p := (List.getElem?_eq_some_iff.mp ht).2
            simp only [List.get_eq_getElem, List.getElem_map, l2]
            exact e2
          simpa using this a
        rw [this, e']
    · rw [if_neg (c := j + ps.length = pos ut qI rI ps t) (by omega)]
      have huc : (ut && complete) = true := by
        by_contra hcon
        unfold fillCols at hj
        rw [if_neg hcon] at hj
        simp at hj
      have huc' : ut = true ∧ complete = true := by simpa using huc
      have hj' := hj
      unfold fillCols at hj'
      rw [if_pos huc, List.getElem?_map, Option.map_eq_some_iff] at hj'
      obtain ⟨q, hq, rfl⟩ := hj'
      have hqm : q ∈ ps.filter (tall qI rI) := List.mem_of_getElem? hq
      rw [List.mem_filter] at hqm
      have hqf := fill_iff h hqm.1 huc'
      by_cases he : p.1.i1 = q.1.i1
      · have : p = q := by
          have := List.inj_on_of_nodup_map h.n1 hp hqm.1 he
          exact this
        subst this
        have hf : 0 < fillOf ut complete qI rI p := by
          have := hqm.2
          unfold tall at this
          rw [hqf]
          simp at this
          omega
        have hfa := fill_at h ht hf
        have hjj : j = fills ut complete qI rI (ps.take t) := by
          have hnd : ((fillCols ut complete qI rI ps).map (·.own)).Nodup := by
            unfold fillCols
            rw [if_pos huc, List.map_map]
            exact h.n1.sublist (List.Sublist.map _ List.filter_sublist)
          have := (List.nodup_iff_injective_get.mp hnd)
          have l1 := (List.getElem?_eq_some_iff.mp hj).1
          have l2 := (List.getElem?_eq_some_iff.mp hfa).1
          have a : ((fillCols ut complete qI rI ps).map (·.own)).get ⟨j, by simpa using l1⟩ =
              ((fillCols ut complete qI rI ps).map (·.own)).get ⟨fills ut complete qI rI (ps.take t), by simpa using l2⟩ := by
            simp only [List.get_eq_getElem, List.getElem_map, (List.getElem?_eq_some_iff.mp hj).2,
              (List.getElem?_eq_some_iff.mp hfa).2]
          simpa using this a
        rw [if_pos ⟨hf, by rw [hjj]⟩, if_pos rfl, hqf]
      · rw [if_neg he, if_neg]
        rintro ⟨hf, e2⟩
        have : j = fills ut complete qI rI (ps.take t) := by omega
        subst this
        rw [fill_at h ht hf] at hj
        simp only [Option.some.injEq, Col.mk.injEq] at hj
        exact he hj.1
    · rw [if_neg (c := _ = pos ut qI rI ps t) (by omega), if_neg (by
        rintro ⟨hf, e2⟩
        have := hflt hf
        omega), if_neg]
      intro e2
      unfold zeroCols at hj
      split at hj
      · rw [List.getElem?_map, Option.map_eq_some_iff] at hj
        obtain ⟨b, hbz, rfl⟩ := hj
        exact (mem_zerob.mp (List.mem_of_getElem? hbz)).2 p hp e2
      · simp at hj
  rw [e1]
  simp only [Res.bind]
  cases hcm : complete with
  | false =>
    subst hcm
    refine ⟨Q, R, _, rfl, ?_, hR, fun t p ht n => (hb t p ht).2 n⟩
    intro n c hc i hi
    by_cases hip : ∃ p ∈ ps, p.1.i1 = i
    · obtain ⟨p, hp, rfl⟩ := hip
      exact key n c hc p hp
    · push Not at hip
      rw [hQ i hip, if_neg]
      rintro rfl
      -- every owner is the row sector of a block
      rcases cols_cases hc with ⟨hn, hm⟩ | ⟨j, rfl, hj⟩ | ⟨j, rfl, hj⟩
      · obtain ⟨t, ht, e'⟩ := pos_onto h hn
        have hp' := List.getElem?_eq_getElem ht
        have hm' := main_at h hp'
        rw [e', hm] at hm'
        simp only [Option.some.injEq] at hm'
        exact hip _ (List.getElem_mem ht) (by rw [hm'])
      · simp [fillCols] at hj
      · simp [zeroCols] at hj
  | true =>
    subst hcm
    simp only [if_true]
    obtain ⟨Q', e2, hQ', hz⟩ := zeros_ok (qI := qI) (L := L) (N := ps.length) (zerob qI (ps.map (·.1)))
      (Q, fills ut true qI rI ps) (by unfold zerob; exact List.nodup_range.filter _)
      (by
        intro i hi n t
        show Q i n t = 0
        rw [hQ i (mem_zerob.mp hi).2])
      (by
        intro j i hj
        simp only
        have hzc : (zeroCols true qI ps)[j]? = some ⟨i, 0, qI.size i⟩ := by
          simp only [zeroCols, if_true]
          rw [List.getElem?_map, hj]; rfl
        have hc := cols_zero (ut := ut) (rI := rI) hzc
        rw [← fills_le h] at hc
        exact ⟨exQ_at hL hd hc (mem_zerob.mp (List.mem_of_getElem? hj)).1, (secs_at hL hc).2.2.symm⟩)
    rw [e2]
    refine ⟨Q', R, _, rfl, ?_, hR, fun t p ht n => (hb t p ht).2 n⟩
    intro n c hc i hi
    by_cases hip : ∃ p ∈ ps, p.1.i1 = i
    · obtain ⟨p, hp, rfl⟩ := hip
      rw [hQ' _ (fun hmem => (mem_zerob.mp hmem).2 p hp rfl)]
      exact key n c hc p hp
    · push Not at hip
      have hiz : i ∈ zerob qI (ps.map (·.1)) := mem_zerob.mpr ⟨hi, hip⟩
      obtain ⟨j, hj⟩ := List.mem_iff_getElem?.mp hiz
      rw [hz j i hj n, W_none hip]
      have hzc : (zeroCols true qI ps)[j]? = some ⟨i, 0, qI.size i⟩ := by
        simp only [zeroCols, if_true]
        rw [List.getElem?_map, hj]; rfl
      have hcz := cols_zero (ut := ut) (rI := rI) hzc
      rw [← fills_le h] at hcz
      simp only
      by_cases hn : n = fills ut true qI rI ps + j + ps.length
      · subst hn
        rw [hcz] at hc
        simp only [Option.some.injEq] at hc
        subst hc
        simp only [if_true, Nat.zero_add]
      · rw [if_neg hn, if_neg]
        rintro rfl
        rcases cols_cases hc with ⟨hn, hm⟩ | ⟨j', rfl, hj'⟩ | ⟨j', rfl, hj'⟩
        · obtain ⟨t, ht, e'⟩ := pos_onto h hn
          have hp' := List.getElem?_eq_getElem ht
          have hm' := main_at h hp'
          rw [e', hm] at hm'
          simp only [Option.some.injEq] at hm'
          exact hip _ (List.getElem_mem ht) (by rw [hm'])
        · unfold fillCols at hj'
          split at hj'
          · rw [List.getElem?_map, Option.map_eq_some_iff] at hj'
            obtain ⟨q, hq, rfl⟩ := hj'
            have hqm : q ∈ ps.filter (tall qI rI) := List.mem_of_getElem? hq
            rw [List.mem_filter] at hqm
            exact hip q hqm.1 rfl
          · simp at hj'
        · apply hn
          simp only [zeroCols, if_true] at hj'
          rw [List.getElem?_map, Option.map_eq_some_iff] at hj'
          obtain ⟨b, hbz, rfl⟩ := hj'
          simp only at hj
          have hnd : (zerob qI (ps.map (·.1))).Nodup := by unfold zerob; exact List.nodup_range.filter _
          have l1 := (List.getElem?_eq_some_iff.mp hj).1
          have l2 := (List.getElem?_eq_some_iff.mp hbz).1
          have := (List.nodup_iff_injective_get.mp hnd)
          have a : (zerob qI (ps.map (·.1))).get ⟨j, l1⟩ = (zerob qI (ps.map (·.1))).get ⟨j', l2⟩ := by
            simp only [List.get_eq_getElem, (List.getElem?_eq_some_iff.mp hj).2,
              (List.getElem?_eq_some_iff.mp hbz).2]
          have : j = j' := by simpa using this a
          rw [this, fills_le h]

/-! ### Orthonormal columns -/

/-- How many columns the matrix of a row sector has. -/
def kf (qI : Ind G) (ps : List (Blk 𝕜 × Fac 𝕜)) (i : ℕ) : ℕ :=
  match ps.find? fun p => p.1.i1 = i with
  | some p => p.2.k
  | none => qI.size i

omit [DecidableEq G] in
theorem kf_blk (h : Good ut complete qI rI div ps) {p} (hp : p ∈ ps) : kf qI ps p.1.i1 = p.2.k := by
  unfold kf
  rw [find_unique (f := fun p => p.1.i1) h.n1 hp]

omit [DecidableEq G] in
theorem kf_none {i : ℕ} (hi : ∀ p ∈ ps, p.1.i1 ≠ i) : kf qI ps i = qI.size i := by
  unfold kf
  rw [List.find?_eq_none.mpr (by intro p hp; simpa using hi p hp)]

omit [DecidableEq G] in
theorem W_orth (h : Good ut complete qI rI div ps)
    (hqr : ∀ p ∈ ps, IsQr (qI.size p.1.i1) (rI.size p.1.i2) p.2.k p.1.M p.2.Q p.2.R) {i c c' : ℕ}
    (hc : c < kf qI ps i) (hc' : c' < kf qI ps i) :
    ∑ x ∈ Finset.range (qI.size i), star (W ps i x c) * W ps i x c' = if c = c' then 1 else 0 := by
  by_cases hip : ∃ p ∈ ps, p.1.i1 = i
  · obtain ⟨p, hp, rfl⟩ := hip
    rw [kf_blk h hp] at hc hc'
    rw [W_blk h hp]
    exact (hqr p hp).orth c c' hc hc'
  · push Not at hip
    rw [kf_none hip] at hc hc'
    rw [W_none hip]
    simp only
    rw [Finset.sum_eq_single c]
    · simp
    · intro b _ hb
      simp [hb]
    · intro hb
      simp only [Finset.mem_range] at hb
      omega

/-- The kinds of columns, in terms of the blocks. -/
inductive Kind (ut complete : Bool) (qI rI : Ind G) (ps : List (Blk 𝕜 × Fac 𝕜)) (n : ℕ) (c : Col) : Prop
  | main (t : ℕ) (p) (ht : ps[t]? = some p) (e : n = pos ut qI rI ps t) (hn : n < ps.length)
      (hc : c = ⟨p.1.i1, 0, min p.2.k (rI.size p.1.i2)⟩)
  | fill (j : ℕ) (p) (hp : p ∈ ps) (e : n = j + ps.length) (hj : (fillCols ut complete qI rI ps)[j]? = some c)
      (huc : ut = true ∧ complete = true)
      (hc : c = ⟨p.1.i1, min p.2.k (rI.size p.1.i2), qI.size p.1.i1 - rI.size p.1.i2⟩)
  | zero (j b : ℕ) (e : n = (fillCols ut complete qI rI ps).length + j + ps.length)
      (hb : (zerob qI (ps.map (·.1)))[j]? = some b) (hcm : complete = true) (hc : c = ⟨b, 0, qI.size b⟩)

omit [DecidableEq G] in
theorem kind (h : Good ut complete qI rI div ps) {n : ℕ} {c} (hc : (cols ut complete qI rI ps)[n]? = some c) :
    Kind ut complete qI rI ps n c := by
  rcases cols_cases hc with ⟨hn, hm⟩ | ⟨j, rfl, hj⟩ | ⟨j, rfl, hj⟩
  · obtain ⟨t, ht, e'⟩ := pos_onto h hn
    have hp' := List.getElem?_eq_getElem ht
    have hm' := main_at h hp'
    rw [e', hm] at hm'
    simp only [Option.some.injEq] at hm'
    exact .main t _ hp' e'.symm hn hm'
  · have huc : (ut && complete) = true := by
      by_contra hcon
      unfold fillCols at hj
      rw [if_neg hcon] at hj
      simp at hj
    have hj' := hj
    unfold fillCols at hj'
    rw [if_pos huc, List.getElem?_map, Option.map_eq_some_iff] at hj'
    obtain ⟨q, hq, rfl⟩ := hj'
    have hqm : q ∈ ps.filter (tall qI rI) := List.mem_of_getElem? hq
    rw [List.mem_filter] at hqm
    exact .fill j q hqm.1 rfl hj (by simpa using huc) rfl
  · unfold zeroCols at hj
    split at hj
    · rename_i hcm
      rw [List.getElem?_map, Option.map_eq_some_iff] at hj
      obtain ⟨b, hbz, rfl⟩ := hj
      exact .zero j b rfl hbz hcm rfl
    · simp at hj

omit [DecidableEq G] in
theorem own_lt (h : Good ut complete qI rI div ps) {n : ℕ} {c} (hc : (cols ut complete qI rI ps)[n]? = some c) :
    c.own < qI.nblock := by
  cases kind h hc with
  | main t p ht e hn hc => subst hc; exact h.lt1 p (List.mem_of_getElem? ht)
  | fill j p hp e hj huc hc => subst hc; exact h.lt1 p hp
  | zero j b e hb hcm hc => subst hc; exact (mem_zerob.mp (List.mem_of_getElem? hb)).1

omit [DecidableEq G] in
theorem base_le (h : Good ut complete qI rI div ps) {n : ℕ} {c} (hc : (cols ut complete qI rI ps)[n]? = some c) :
    c.base + c.w ≤ kf qI ps c.own := by
  cases kind h hc with
  | main t p ht e hn hc =>
    subst hc
    rw [kf_blk h (List.mem_of_getElem? ht)]
    simp only
    omega
  | fill j p hp e hj huc hc =>
    subst hc
    rw [kf_blk h hp, h.k p hp, huc.2]
    unfold rrows
    simp only [if_true]
    split <;> omega
  | zero j b e hb hcm hc =>
    subst hc
    rw [kf_none (mem_zerob.mp (List.mem_of_getElem? hb)).2]
    simp

omit [DecidableEq G] [AddCommGroup G] in
theorem nodup_at {α : Type*} {f : α → ℕ} {l : List α} (hn : (l.map f).Nodup) {t t' : ℕ} {a a' : α}
    (h : l[t]? = some a) (h' : l[t']? = some a') (e : f a = f a') : t = t' := by
  have l1 := (List.getElem?_eq_some_iff.mp h).1
  have l2 := (List.getElem?_eq_some_iff.mp h').1
  have := (List.nodup_iff_injective_get.mp hn)
  have a : (l.map f).get ⟨t, by simpa using l1⟩ = (l.map f).get ⟨t', by simpa using l2⟩ := by
    simp only [List.get_eq_getElem, List.getElem_map, (List.getElem?_eq_some_iff.mp h).2,
      (List.getElem?_eq_some_iff.mp h').2, e]
  simpa using this a

omit [DecidableEq G] in
theorem disjoint (h : Good ut complete qI rI div ps) {n n' : ℕ} {c c'}
    (hc : (cols ut complete qI rI ps)[n]? = some c) (hc' : (cols ut complete qI rI ps)[n']? = some c')
    (hlt : n < n') (ho : c.own = c'.own) : c.base + c.w ≤ c'.base := by
  have hnf : ((fillCols ut complete qI rI ps).map (·.own)).Nodup := by
    unfold fillCols
    split
    · rw [List.map_map]
      exact h.n1.sublist (List.Sublist.map _ List.filter_sublist)
    · simp
  have hnz : ((zerob qI (ps.map (·.1))).map id).Nodup := by
    rw [List.map_id]
    unfold zerob
    exact List.nodup_range.filter _
  cases kind h hc with
  | main t p ht e hn hc =>
    subst hc
    cases kind h hc' with
    | main t' p' ht' e' hn' hc' =>
      subst hc'
      have := nodup_at h.n1 ht ht' ho
      subst this
      omega
    | fill j p' hp' e' hj' huc hc' =>
      subst hc'
      have : p = p' := List.inj_on_of_nodup_map h.n1 (List.mem_of_getElem? ht) hp' ho
      subst this
      simp
    | zero j b e' hb hcm hc' =>
      subst hc'
      exact absurd ho ((mem_zerob.mp (List.mem_of_getElem? hb)).2 p (List.mem_of_getElem? ht))
  | fill j p hp e hj huc hc =>
    cases kind h hc' with
    | main t' p' ht' e' hn' hc' => omega
    | fill j' p' hp' e' hj' huc hc' =>
      have := nodup_at hnf hj hj' ho
      omega
    | zero j b e' hb hcm hc' =>
      subst hc'
      subst hc
      exact absurd ho ((mem_zerob.mp (List.mem_of_getElem? hb)).2 p hp)
  | zero j b e hb hcm hc =>
    cases kind h hc' with
    | main t' p' ht' e' hn' hc' => omega
    | fill j' p' hp' e' hj' huc hc' =>
      have := (List.getElem?_eq_some_iff.mp hj').1
      omega
    | zero j' b' e' hb' hcm hc' =>
      subst hc
      subst hc'
      have := nodup_at hnz hb hb' ho
      omega

omit [DecidableEq G] [AddCommGroup G] in
theorem filled_at {nr w x c : ℕ} (hx : x < nr) (hc : c < w) (f : ℕ → ℕ → 𝕜) :
    filled nr w f (x + c * nr) = f x c := by
  unfold filled
  have h1 : x + c * nr < nr * w := by
    calc x + c * nr < nr + c * nr := by omega
      _ = (c + 1) * nr := by ring
      _ ≤ w * nr := Nat.mul_le_mul_right _ hc
      _ = nr * w := Nat.mul_comm _ _
  rw [if_pos h1, Nat.add_mul_mod_self_right, Nat.mod_eq_of_lt hx, Nat.add_mul_div_right _ _ (by omega),
    Nat.div_eq_of_lt hx, Nat.zero_add]

/-- The column group of a sector of the new index. -/
theorem col_at {L : Ind G} (hL : L.secs = liq ut complete qI rI ps) (n : Fin L.nblock) :
    ∃ c, (cols ut complete qI rI ps)[n.val]? = some c ∧ L.size n = c.w := by
  have h1 : L.nblock = (cols ut complete qI rI ps).length := by
    unfold Ind.nblock
    rw [hL, liq_cols, List.length_map]
  have h2 : n.val < (cols ut complete qI rI ps).length := by omega
  exact ⟨_, List.getElem?_eq_getElem h2, (secs_at hL (List.getElem?_eq_getElem h2)).2.2⟩

/-- The elements of `Q`. -/
def QSpec (ut complete : Bool) (qI rI : Ind G) (ps : List (Blk 𝕜 × Fac 𝕜)) (Q : Store 𝕜) : Prop :=
  ∀ n c, (cols ut complete qI rI ps)[n]? = some c → ∀ i, i < qI.nblock → Q i n =
    if i = c.own then filled (qI.size i) c.w (fun x k => W ps i x (c.base + k)) else fun _ => 0

theorem mat_Q {L : Ind G} {Q : Store 𝕜} (hQ : QSpec ut complete qI rI ps Q) (r : qI.Pos) (c : L.Pos) {g : Col}
    (hg : (cols ut complete qI rI ps)[c.1.val]? = some g) (hw : L.size c.1 = g.w) :
    mat qI L Q r c = if r.1.val = g.own then W ps r.1 r.2 (g.base + c.2) else 0 := by
  have h2 : c.2.val < g.w := by have := c.2.isLt; omega
  rw [mat, Matrix.of_apply, hQ _ _ hg _ r.1.isLt]
  split
  · rw [filled_at r.2.isLt h2]
  · rfl

theorem ortho (h : Good ut complete qI rI div ps)
    (hqr : ∀ p ∈ ps, IsQr (qI.size p.1.i1) (rI.size p.1.i2) p.2.k p.1.M p.2.Q p.2.R)
    {L : Ind G} (hL : L.secs = liq ut complete qI rI ps) {Q : Store 𝕜} (hQ : QSpec ut complete qI rI ps Q) :
    (mat qI L Q)ᴴ * mat qI L Q = 1 := by
  ext c c'
  obtain ⟨g, hg, hw⟩ := col_at hL c.1
  obtain ⟨g', hg', hw'⟩ := col_at hL c'.1
  have l1 : c.2.val < g.w := by have := c.2.isLt; omega
  have l2 : c'.2.val < g'.w := by have := c'.2.isLt; omega
  have b1 := base_le h hg
  have b2 := base_le h hg'
  rw [Matrix.mul_apply, Fintype.sum_sigma]
  have e1 : ∀ (i : Fin qI.nblock) (x : Fin (qI.size i)),
      (mat qI L Q)ᴴ c ⟨i, x⟩ * mat qI L Q ⟨i, x⟩ c' =
        if i.val = g.own then (if i.val = g'.own then
          star (W ps i x (g.base + c.2)) * W ps i x (g'.base + c'.2) else 0) else 0 := by
    intro i x
    rw [Matrix.conjTranspose_apply, mat_Q hQ _ _ hg hw, mat_Q hQ _ _ hg' hw']
    by_cases h1 : i.val = g.own
    · by_cases h2 : i.val = g'.own
      · rw [if_pos h1, if_pos h2, if_pos h1, if_pos h2]
      · simp only [if_pos h1, if_neg h2, mul_zero]
    · rw [if_neg h1, if_neg h1, star_zero, zero_mul]
  simp_rw [e1]
  rw [Finset.sum_eq_single (⟨g.own, own_lt h hg⟩ : Fin qI.nblock)]
  · simp only [if_true]
    by_cases ho : g.own = g'.own
    · simp only [if_pos ho]
      rw [Finset.sum_range (fun x => star (W ps g.own x (g.base + c.2)) * W ps g.own x (g'.base + c'.2)) |>.symm]
      rw [W_orth h hqr (by omega) (by rw [ho]; omega), Matrix.one_apply]
      by_cases hc : c = c'
      · subst hc
        rw [hg] at hg'
        simp only [Option.some.injEq] at hg'
        subst hg'
        simp
      · rw [if_neg hc, if_neg]
        intro e
        apply hc
        rcases lt_trichotomy c.1.val c'.1.val with hl | hl | hl
        · have := disjoint h hg hg' hl ho
          omega
        · have hl : c.1 = c'.1 := Fin.ext hl
          obtain ⟨n, k⟩ := c
          obtain ⟨n', k'⟩ := c'
          simp only at hl
          subst hl
          simp only at hg hg' e
          rw [hg] at hg'
          simp only [Option.some.injEq] at hg'
          subst hg'
          have : k = k' := Fin.ext (by omega)
          rw [this]
        · have := disjoint h hg' hg hl ho.symm
          omega
    · simp only [ho, if_false, Finset.sum_const_zero]
      rw [Matrix.one_apply, if_neg]
      rintro rfl
      rw [hg] at hg'
      simp only [Option.some.injEq] at hg'
      exact ho (by rw [hg'])
  · intro i _ hi
    have : ¬ i.val = g.own := fun e => hi (Fin.ext e)
    simp [this]
  · simp

/-! ### The product -/

theorem product (h : Good ut complete qI rI div ps)
    (hqr : ∀ p ∈ ps, IsQr (qI.size p.1.i1) (rI.size p.1.i2) p.2.k p.1.M p.2.Q p.2.R)
    {L : Ind G} (hL : L.secs = liq ut complete qI rI ps) {Q R : Store 𝕜} (hQ : QSpec ut complete qI rI ps Q)
    (hR0 : ∀ i, (∀ p ∈ ps, p.1.i2 ≠ i) → ∀ n, R n i = fun _ => 0)
    (hR : ∀ t p, ps[t]? = some p → ∀ n, R n p.1.i2 = colR rI (pos ut qI rI ps t) p n) :
    tens qI rI (ps.map (·.1)) = mat qI L Q * mat L rI R := by
  ext r c
  rw [Matrix.mul_apply, Fintype.sum_sigma]
  rw [tens, Matrix.of_apply]
  by_cases hip : ∃ p ∈ ps, p.1.i2 = c.1.val
  · obtain ⟨p, hp, e⟩ := hip
    obtain ⟨t, ht⟩ := List.mem_iff_getElem?.mp hp
    have hm := cols_main (complete := complete) (main_at h ht)
    obtain ⟨a1, a2, a3⟩ := secs_at hL hm
    have hsz : L.size (⟨pos ut qI rI ps t, a1⟩ : Fin L.nblock).val = min p.2.k (rI.size p.1.i2) := a3
    have hy : c.2.val < rI.size p.1.i2 := by rw [e]; exact c.2.isLt
    have hRc : ∀ n, R n c.1.val = colR rI (pos ut qI rI ps t) p n := by
      intro n
      rw [← e]
      exact hR t p ht n
    rw [Finset.sum_eq_single (⟨pos ut qI rI ps t, a1⟩ : Fin L.nblock)]
    · have e1 : ∀ k : Fin (L.size (⟨pos ut qI rI ps t, a1⟩ : Fin L.nblock).val),
          mat qI L Q r ⟨⟨pos ut qI rI ps t, a1⟩, k⟩ * mat L rI R ⟨⟨pos ut qI rI ps t, a1⟩, k⟩ c =
          (fun k => if r.1.val = p.1.i1 then p.2.Q r.2 k * p.2.R k c.2 else 0) k.val := by
        intro k
        have hk : k.val < min p.2.k (rI.size p.1.i2) := by have := k.isLt; omega
        rw [mat_Q hQ _ _ hm hsz]
        simp only
        split
        · rename_i hr
          have hW : W ps r.1.val = p.2.Q := by rw [hr]; exact W_blk h hp
          rw [hW, mat, Matrix.of_apply, hRc]
          simp only [colR, if_true, Nat.zero_add]
          have hk2 : k.val + c.2.val * L.size (⟨pos ut qI rI ps t, a1⟩ : Fin L.nblock).val =
              k.val + c.2.val * min p.2.k (rI.size p.1.i2) :=
            congrArg (fun z => k.val + c.2.val * z) hsz
          rw [hk2, filled_at hk hy]
        · simp
      rw [Finset.sum_congr rfl fun k _ => e1 k,
        ← Finset.sum_range (fun k => if r.1.val = p.1.i1 then p.2.Q r.2 k * p.2.R k c.2 else 0), hsz]
      by_cases hr : r.1.val = p.1.i1
      · have hf : (ps.map (·.1)).find? (fun B => B.i1 = r.1.val ∧ B.i2 = c.1.val) = some p.1 := by
          rw [List.find?_map]
          have hcg : ps.find? ((fun B : Blk 𝕜 => decide (B.i1 = r.1.val ∧ B.i2 = c.1.val)) ∘ fun x => x.1) =
              ps.find? (fun q => q.1.i1 = p.1.i1) := by
            apply List.find?_congr
            intro q hq
            simp only [Function.comp, hr, decide_eq_decide]
            refine ⟨fun h => h.1, fun h1 => ⟨h1, ?_⟩⟩
            have := List.inj_on_of_nodup_map h.n1 hq hp h1
            rw [this, e]
          rw [hcg, find_unique (f := fun p => p.1.i1) h.n1 hp]
          rfl
        rw [hf]
        simp only [hr, if_true]
        have hx : r.2.val < qI.size p.1.i1 := by rw [← hr]; exact r.2.isLt
        rw [(hqr p hp).eq _ _ hx hy]
        symm
        apply Finset.sum_subset
        · intro k hk
          simp only [Finset.mem_range] at *
          omega
        · intro k hk hk'
          simp only [Finset.mem_range] at hk hk'
          rw [(hqr p hp).tri k c.2 hk hy (by omega), mul_zero]
      · have hf : (ps.map (·.1)).find? (fun B => B.i1 = r.1.val ∧ B.i2 = c.1.val) = none := by
          rw [List.find?_eq_none]
          intro B hB
          obtain ⟨q, hq, rfl⟩ := List.mem_map.mp hB
          simp only [decide_eq_true_eq, not_and]
          intro h1 h2
          have := List.inj_on_of_nodup_map h.n2 hq hp (h2.trans e.symm)
          rw [this] at h1
          exact hr h1.symm
        rw [hf]
        simp [hr]
    · intro n _ hn
      apply Finset.sum_eq_zero
      intro k _
      have : mat L rI R ⟨n, k⟩ c = 0 := by
        rw [mat, Matrix.of_apply, hRc]
        unfold colR
        rw [if_neg (fun e => hn (Fin.ext e))]
      rw [this, mul_zero]
    · simp
  · push Not at hip
    have hf : (ps.map (·.1)).find? (fun B => B.i1 = r.1.val ∧ B.i2 = c.1.val) = none := by
      rw [List.find?_eq_none]
      intro B hB
      obtain ⟨q, hq, rfl⟩ := List.mem_map.mp hB
      simp only [decide_eq_true_eq, not_and]
      intro _
      exact hip q hq
    rw [hf]
    simp only
    symm
    apply Finset.sum_eq_zero
    intro n _
    apply Finset.sum_eq_zero
    intro k _
    have : mat L rI R ⟨n, k⟩ c = 0 := by
      rw [mat, Matrix.of_apply, hR0 _ hip]
    rw [this, mul_zero]

/-! ### All columns -/

omit [DecidableEq G] in
theorem sum_sizes (I : Ind G) : ∑ i : Fin I.nblock, I.size i = (I.secs.map (·.2)).sum := by
  unfold Ind.nblock Ind.size
  rw [← List.sum_ofFn]
  congr 1
  apply List.ext_getElem
  · simp
  · intro i h1 h2
    simp only [List.length_ofFn] at h1
    simp [h1]

omit [DecidableEq G] in
theorem sum_take (I : Ind G) {m : ℕ} (hm : m ≤ I.nblock) :
    ((I.secs.take m).map (·.2)).sum = ∑ i ∈ Finset.range m, I.size i := by
  induction m with
  | zero => simp
  | succ m ih =>
    have hlt : m < I.secs.length := hm
    rw [Finset.sum_range_succ, ← ih (by omega), List.take_succ_eq_append_getElem hlt]
    simp [Ind.size, hlt]

omit [DecidableEq G] in
theorem rows_perm (h : Good ut complete qI rI div ps) :
    ((ps.map fun p => p.1.i1) ++ zerob qI (ps.map (·.1))).Perm (List.range qI.nblock) := by
  rw [List.perm_ext_iff_of_nodup]
  · intro i
    rw [List.mem_append, mem_zerob, List.mem_map, List.mem_range]
    constructor
    · rintro (⟨p, hp, rfl⟩ | ⟨h1, -⟩)
      · exact h.lt1 p hp
      · exact h1
    · intro hi
      by_cases hip : ∃ p ∈ ps, p.1.i1 = i
      · exact Or.inl hip
      · push Not at hip
        exact Or.inr ⟨hi, hip⟩
  · rw [List.nodup_append]
    refine ⟨h.n1, by unfold zerob; exact List.nodup_range.filter _, ?_⟩
    intro a ha b hb e
    obtain ⟨p, hp, rfl⟩ := List.mem_map.mp ha
    exact (mem_zerob.mp hb).2 p hp e
  · exact List.nodup_range

omit [DecidableEq G] in
theorem sum_filter {α : Type*} (q : α → Bool) (f : α → ℕ) (l : List α) :
    ((l.filter q).map f).sum = (l.map fun a => if q a then f a else 0).sum := by
  induction l with
  | nil => rfl
  | cons a l ih =>
    rw [List.filter_cons, List.map_cons, List.sum_cons, ← ih]
    split <;> simp

omit [DecidableEq G] in
theorem main_sum (h : Good ut true qI rI div ps) :
    ((mainCols ut qI rI ps).map (·.w)).sum =
      (ps.map fun p => min (qI.size p.1.i1) (rI.size p.1.i2)).sum := by
  have hk : ∀ p ∈ ps, p.2.k = qI.size p.1.i1 := by
    intro p hp
    rw [h.k p hp]
    unfold rrows
    split <;> simp
  unfold mainCols
  split
  · have hp : (indLiq qI rI ps).Perm (ps.zipIdx.map (entry qI rI)) := List.mergeSort_perm _ _
    rw [List.map_map, (hp.map _).sum_eq, List.map_map]
    have e : (((fun c : Col => c.w) ∘ fun t : ℕ × (G × ℕ) × ℕ =>
        (⟨(ps.map fun p => p.1.i1).getD t.2.2 0, 0, t.2.1.2⟩ : Col)) ∘ entry qI rI) =
        (fun p : Blk 𝕜 × Fac 𝕜 => min p.2.k (rI.size p.1.i2)) ∘ Prod.fst := by
      funext x; rfl
    rw [e, ← List.map_map, List.zipIdx_map_fst]
    congr 1
    apply List.map_congr_left
    intro p hp
    rw [hk p hp]
  · rename_i hut
    rw [List.map_map]
    congr 1
    apply List.map_congr_left
    intro p hp
    rcases h.ord with ⟨h1, -⟩ | ⟨-, -, hw⟩
    · exact absurd h1 hut
    · have := hw p.1 (List.mem_map.mpr ⟨p, hp, rfl⟩)
      simp only [Function.comp, hk p hp]
      omega

omit [DecidableEq G] in
theorem fill_sum (h : Good ut true qI rI div ps) :
    ((fillCols ut true qI rI ps).map (·.w)).sum =
      (ps.map fun p => qI.size p.1.i1 - rI.size p.1.i2).sum := by
  unfold fillCols
  split
  · rw [List.map_map, sum_filter]
    congr 1
    apply List.map_congr_left
    intro p _
    simp only [tall, decide_eq_true_eq, Function.comp]
    split <;> omega
  · rename_i hut
    rcases h.ord with ⟨h1, -⟩ | ⟨-, -, hw⟩
    · simp [h1] at hut
    · symm
      rw [List.map_nil, List.sum_nil, List.sum_eq_zero_iff_forall_eq_nat]
      intro x hx
      obtain ⟨p, hp, rfl⟩ := List.mem_map.mp hx
      have := hw p.1 (List.mem_map.mpr ⟨p, hp, rfl⟩)
      omega

theorem card_eq (h : Good ut true qI rI div ps) {L : Ind G} (hL : L.secs = liq ut true qI rI ps) :
    Fintype.card qI.Pos = Fintype.card L.Pos := by
  rw [Fintype.card_sigma, Fintype.card_sigma]
  simp only [Fintype.card_fin]
  rw [sum_sizes L, hL, liq_cols, List.map_map]
  have e : ((fun x : G × ℕ => x.2) ∘ fun c : Col => (qI.qn c.own, c.w)) = fun c => c.w := rfl
  rw [e]
  unfold cols
  rw [List.map_append, List.map_append, List.sum_append, List.sum_append, main_sum h, fill_sum h,
    ← List.sum_map_add]
  have e2 : (ps.map fun p => min (qI.size p.1.i1) (rI.size p.1.i2) + (qI.size p.1.i1 - rI.size p.1.i2)) =
      (ps.map fun p => p.1.i1).map qI.size := by
    rw [List.map_map]
    apply List.map_congr_left
    intro p _
    simp only [Function.comp]
    omega
  have e3 : (zeroCols true qI ps).map (·.w) = (zerob qI (ps.map (·.1))).map qI.size := by
    simp only [zeroCols, if_true]
    rw [List.map_map]
    rfl
  rw [e2, e3, ← List.sum_append, ← List.map_append, ((rows_perm h).map _).sum_eq]
  rw [← Finset.sum_range (fun i => qI.size i)]
  rw [← List.sum_toFinset _ List.nodup_range]
  congr 1
  ext i
  simp

/-! ### Upper triangular -/

omit [DecidableEq G] in
theorem triangular (h : Good true complete qI rI div ps)
    (hqr : ∀ p ∈ ps, IsQr (qI.size p.1.i1) (rI.size p.1.i2) p.2.k p.1.M p.2.Q p.2.R)
    {L : Ind G} (hL : L.secs = liq true complete qI rI ps) {R : Store 𝕜}
    (hR0 : ∀ i, (∀ p ∈ ps, p.1.i2 ≠ i) → ∀ n, R n i = fun _ => 0)
    (hR : ∀ t p, ps[t]? = some p → ∀ n, R n p.1.i2 = colR rI (pos true qI rI ps t) p n)
    (r : L.Pos) (c : rI.Pos) (hlt : rI.place c < L.place r) : mat L rI R r c = 0 := by
  rw [mat, Matrix.of_apply]
  by_cases hip : ∃ p ∈ ps, p.1.i2 = c.1.val
  · obtain ⟨p, hp, e⟩ := hip
    obtain ⟨t, ht⟩ := List.mem_iff_getElem?.mp hp
    have hRc : ∀ n, R n c.1.val = colR rI (pos true qI rI ps t) p n := by
      intro n
      rw [← e]
      exact hR t p ht n
    rw [hRc]
    unfold colR
    by_cases hn : r.1.val = pos true qI rI ps t
    · rw [if_pos hn]
      have hm := main_at h ht
      have hmc := cols_main (complete := complete) hm
      have hsz : L.size r.1 = min p.2.k (rI.size p.1.i2) := by rw [hn]; exact (secs_at hL hmc).2.2
      have hy : c.2.val < rI.size p.1.i2 := by rw [e]; exact c.2.isLt
      have hk : r.2.val < min p.2.k (rI.size p.1.i2) := by have := r.2.isLt; omega
      have hk2 : r.2.val + c.2.val * L.size r.1 = r.2.val + c.2.val * min p.2.k (rI.size p.1.i2) :=
        congrArg (fun z => r.2.val + c.2.val * z) hsz
      rw [hk2, filled_at hk hy]
      apply (hqr p hp).tri _ _ (by omega) hy
      -- the rows before are not more than the columns before
      have hpos : pos true qI rI ps t = rank (ps.map (·.1)) t := by
        rcases h.ord with ⟨-, hr⟩ | ⟨h1, -⟩
        · exact srt_num qI rI h.n2 (by simpa using hr) (List.getElem?_eq_some_iff.mp ht).1
        · cases h1
      have hs := srt_at qI rI h.n2 ht
      rw [← hpos, ← hn] at hs
      have hsl := (List.getElem?_eq_some_iff.mp hs).1
      have h1 : ((L.secs.take r.1.val).map (·.2)) =
          ((indLiq qI rI ps).take r.1.val).map fun t => t.2.1.2 := by
        rw [hL]
        unfold liq
        simp only [if_true]
        rw [List.append_assoc, List.take_append_of_le_length (by rw [List.length_map]; omega), ← List.map_take,
          List.map_map]
        rfl
      have h2 : (((indLiq qI rI ps).take r.1.val).map fun t => t.2.1.2).sum ≤
          (((indLiq qI rI ps).take r.1.val).map fun t => rI.size t.1).sum := by
        apply List.sum_le_sum
        intro x hx
        obtain ⟨b, q, -, rfl⟩ := entry_mem (List.mem_of_mem_take hx)
        simp only [entry]
        omega
      have hsrt := srt_sorted qI rI h.n2
      have hnd : (((indLiq qI rI ps).take r.1.val).map fun t => t.1).Nodup := by
        rw [List.Nodup, List.pairwise_map]
        exact (hsrt.sublist (List.take_sublist _ _)).imp fun h => Nat.ne_of_lt h
      have h3 : (((indLiq qI rI ps).take r.1.val).map fun t => rI.size t.1).sum ≤
          ∑ i ∈ Finset.range c.1.val, rI.size i := by
        have e3 : (((indLiq qI rI ps).take r.1.val).map fun t => rI.size t.1) =
            (((indLiq qI rI ps).take r.1.val).map fun t => t.1).map rI.size := by
          rw [List.map_map]; rfl
        rw [e3, ← List.sum_toFinset _ hnd]
        apply Finset.sum_le_sum_of_subset
        intro i hi
        rw [List.mem_toFinset, List.mem_map] at hi
        obtain ⟨x, hx, rfl⟩ := hi
        rw [Finset.mem_range, ← e]
        obtain ⟨j, hj, rfl⟩ := List.mem_take_iff_getElem.mp hx
        have := List.pairwise_iff_getElem.mp hsrt j r.1.val (by omega) hsl (by omega)
        rw [(List.getElem?_eq_some_iff.mp hs).2] at this
        exact this
      unfold Ind.place at hlt
      rw [h1, sum_take rI (le_of_lt c.1.isLt)] at hlt
      omega
    · rw [if_neg hn]
  · push Not at hip
    rw [hR0 _ hip]

end

/-! ### The theorems -/

omit [DecidableEq G] in
theorem qrQN_good {qr : Method 𝕜} {ut complete : Bool} {qI rI : Ind G} {div : G} {bs : List (Blk 𝕜)}
    (hin : Input qI rI div bs) (hord : Order ut complete qI rI bs) {fs : List (Fac 𝕜)}
    (hf : factors qr complete qI rI bs = .ok fs) :
    (bs.zip fs).map (·.1) = bs ∧ (bs.zip fs).length = bs.length ∧ Good ut complete qI rI div (bs.zip fs) := by
  obtain ⟨hl, hk⟩ := factors_ok hf
  have e : (bs.zip fs).map (·.1) = bs := List.map_fst_zip (by omega)
  have hmem : ∀ p ∈ bs.zip fs, p.1 ∈ bs := by
    intro p hp
    rw [← e]
    exact List.mem_map.mpr ⟨p, hp, rfl⟩
  have e1 : ∀ f : Blk 𝕜 → ℕ, ((bs.zip fs).map fun p => f p.1) = bs.map f := by
    intro f
    conv_rhs => rw [← e]
    rw [List.map_map]
    rfl
  refine ⟨e, by simp [hl], ⟨?_, ?_, fun p hp => (hk p hp).1, fun p hp => hin.lt1 _ (hmem p hp),
    fun p hp => hin.lt2 _ (hmem p hp), fun p hp => hin.flux _ (hmem p hp), by rw [e]; exact hord⟩⟩
  · rw [e1 (·.i1)]; exact hin.fst.1
  · rw [e1 (·.i2)]; exact hin.fst.2

theorem qrQN_run {qr : Method 𝕜} {ut complete : Bool} {qI rI : Ind G} {div : G} {bs : List (Blk 𝕜)}
    (hin : Input qI rI div bs) (hord : Order ut complete qI rI bs) {fs : List (Fac 𝕜)}
    (hf : factors qr complete qI rI bs = .ok fs) (hne : bs ≠ []) :
    ∃ Q R, qrQN qr ut complete qI rI div bs = .ok (⟨liq ut complete qI rI (bs.zip fs), qI.dir⟩, Q, R) ∧
      QSpec ut complete qI rI (bs.zip fs) Q ∧
      (∀ i, (∀ p ∈ bs.zip fs, p.1.i2 ≠ i) → ∀ n, R n i = fun _ => 0) ∧
      ∀ t p, (bs.zip fs)[t]? = some p → ∀ n, R n p.1.i2 = colR rI (pos ut qI rI (bs.zip fs) t) p n := by
  obtain ⟨e, hl, hg⟩ := qrQN_good hin hord hf
  obtain ⟨Q, R, m, hrun, hQ, hR0, hR⟩ := run (L := ⟨liq ut complete qI rI (bs.zip fs), qI.dir⟩) hg rfl rfl
  refine ⟨Q, R, ?_, hQ, hR0, hR⟩
  unfold qrQN
  rw [if_neg (by
      rintro ⟨rfl, rfl⟩
      rcases hord with ⟨h, -⟩ | ⟨-, h, -⟩ <;> cases h),
    if_neg (by simpa using hne), hf]
  simp only [Res.bind]
  rw [hl, e] at hrun
  revert hrun
  cases loop ut complete qI rI ⟨liq ut complete qI rI (bs.zip fs), qI.dir⟩ div (indLiq qI rI (bs.zip fs))
    bs.length (bs.zip fs) 0 (fun _ _ _ => 0, fun _ _ _ => 0, 0) with
  | throw => intro h; simp [Res.bind] at h
  | ub => intro h; simp [Res.bind] at h
  | ok s =>
    simp only [Res.bind]
    cases (if complete = true then zeros qI ⟨liq ut complete qI rI (bs.zip fs), qI.dir⟩ bs.length (zerob qI bs)
      (s.1, s.2.2) else Res.ok (s.1, s.2.2)) with
    | throw => intro h; simp [Res.map] at h
    | ub => intro h; simp [Res.map] at h
    | ok Qe =>
      intro h
      simp only [Res.map, Res.ok.injEq, Prod.mk.injEq] at h ⊢
      exact ⟨trivial, h.1, h.2.1⟩

/-- **C95, the decomposition.** In the cases which the code treats correctly (`Order`), if `qr` returns
then the tensor is `Q` times `R`, `Q` has orthonormal columns, `Q` is unitary if `Complete` is set,
and `R` is upper triangular as a whole, not only block by block, if `UpperTriangular` is set. -/
theorem C95_qr_partial {qr : Method 𝕜} {ut complete : Bool} (hqr : qr.Right complete) {qI rI : Ind G} {div : G}
    {bs : List (Blk 𝕜)} (hin : Input qI rI div bs) (hord : Order ut complete qI rI bs)
    {L : Ind G} {Q R : Store 𝕜} (h : qrQN qr ut complete qI rI div bs = .ok (L, Q, R)) :
    tens qI rI bs = mat qI L Q * mat L rI R ∧ (mat qI L Q)ᴴ * mat qI L Q = 1 ∧
      (complete = true → mat qI L Q * (mat qI L Q)ᴴ = 1) ∧
      (ut = true → ∀ (r : L.Pos) (c : rI.Pos), rI.place c < L.place r → mat L rI R r c = 0) := by
  have hne : bs ≠ [] := by
    rintro rfl
    unfold qrQN at h
    split at h <;> simp at h
  cases hf : factors qr complete qI rI bs with
  | throw =>
    unfold qrQN at h
    rw [hf] at h
    split at h
    · cases h
    · split at h <;> simp [Res.bind] at h
  | ub =>
    unfold qrQN at h
    rw [hf] at h
    split at h
    · cases h
    · split at h <;> simp [Res.bind] at h
  | ok fs =>
    obtain ⟨Q', R', e, hQ, hR0, hR⟩ := qrQN_run hin hord hf hne
    rw [h] at e
    simp only [Res.ok.injEq, Prod.mk.injEq] at e
    obtain ⟨rfl, rfl, rfl⟩ := e
    obtain ⟨e, hl, hg⟩ := qrQN_good hin hord hf
    have hq : ∀ p ∈ bs.zip fs, IsQr (qI.size p.1.i1) (rI.size p.1.i2) p.2.k p.1.M p.2.Q p.2.R := by
      intro p hp
      obtain ⟨h1, h2⟩ := (factors_ok hf).2 p hp
      rw [h1]
      exact hqr _ _ _ _ _ h2
    have ho := ortho (L := ⟨liq ut complete qI rI (bs.zip fs), qI.dir⟩) hg hq rfl hQ
    refine ⟨?_, ho, ?_, ?_⟩
    · have := product (L := ⟨liq ut complete qI rI (bs.zip fs), qI.dir⟩) hg hq rfl hQ hR0 hR
      rwa [e] at this
    · rintro rfl
      exact (Matrix.mul_eq_one_comm_of_card_eq _ _ _
        (card_eq (L := ⟨liq ut true qI rI (bs.zip fs), qI.dir⟩) hg rfl).symm).mp ho
    · rintro rfl r c hlt
      exact triangular hg hq rfl hR0 hR r c hlt

omit [RCLike 𝕜] [DecidableEq G] in
theorem factors_total {qr : Method 𝕜} {complete : Bool} (hT : ∀ nr nc M, (qr nr nc M).isSome) (qI rI : Ind G)
    (l : List (Blk 𝕜)) : ∃ fs, factors qr complete qI rI l = .ok fs := by
  induction l with
  | nil => exact ⟨[], rfl⟩
  | cons B l ih =>
    obtain ⟨fs, e⟩ := ih
    obtain ⟨⟨Q, R⟩, h⟩ := Option.isSome_iff_exists.mp (hT (qI.size B.i1) (rI.size B.i2) B.M)
    unfold factors
    rw [h, e]
    exact ⟨_, rfl⟩

/-- **C95, it returns.** In the same cases, for a tensor with at least one block, if `QR` of every block
returns. -/
theorem C95_returns_partial {qr : Method 𝕜} {ut complete : Bool} (hT : ∀ nr nc M, (qr nr nc M).isSome)
    {qI rI : Ind G} {div : G} {bs : List (Blk 𝕜)} (hin : Input qI rI div bs) (hord : Order ut complete qI rI bs)
    (hne : bs ≠ []) : ∃ o, qrQN qr ut complete qI rI div bs = .ok o := by
  obtain ⟨fs, e⟩ := factors_total (complete := complete) hT qI rI bs
  obtain ⟨Q, R, h, -⟩ := qrQN_run hin hord e hne
  exact ⟨_, h⟩

omit [RCLike 𝕜] in
/-- **C95, which orders are right.** The order of the blocks is right if it is that of the column
sectors, or the reverse. -/
theorem C95_order {bs : List (Blk 𝕜)} (h : (bs.Pairwise fun B B' => B.i2 < B'.i2) ∨
    bs.Pairwise fun B B' => B'.i2 < B.i2) : ∀ b, b < bs.length → rank bs (rank bs b) = b := by
  rcases h with h | h
  · have key : ∀ b, b < bs.length → rank bs b = b := by
      intro b hb
      unfold rank
      rw [List.getElem?_eq_getElem hb]
      exact place (fun B : Blk 𝕜 => B.i2) h (List.getElem?_eq_getElem hb)
    intro b hb
    rw [key b hb, key b hb]
  · have key : ∀ b, b < bs.length → rank bs b = bs.length - 1 - b := by
      intro b hb
      unfold rank
      rw [List.getElem?_eq_getElem hb]
      simp only
      rw [← List.countP_reverse]
      apply place (fun B : Blk 𝕜 => B.i2) (l := bs.reverse) (List.pairwise_reverse.mpr h)
      rw [List.getElem?_reverse (by omega)]
      rw [List.getElem?_eq_getElem (by omega)]
      congr 2
      omega
    intro b hb
    rw [key b hb, key _ (by omega)]
    omega

end Verif.QrQN
