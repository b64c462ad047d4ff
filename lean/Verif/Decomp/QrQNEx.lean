import Verif.Decomp.QrQNC95
import Verif.Decomp.SvdRefC93

/-!
# The QR decomposition of a matrix with quantum numbers: when it goes wrong

C95: with `UpperTriangular` (the default) the loop that fills `Q` and `R` uses the number of the block
at a place of the sorted list where it needs the place of the block with that number
(`/repo/itensor/decomp.cc:1113-1115`). It writes to blocks which do not exist unless that permutation is
its own inverse. With `Complete` and not `UpperTriangular` a block with more rows than columns gives
zero columns in `Q`.
-/

namespace Verif.QrQN

open Matrix
open Verif.SvdRef (rrows)

variable {G 𝕜 : Type*} [RCLike 𝕜] [AddCommGroup G] [DecidableEq G]

/-! ### The order -/

omit [RCLike 𝕜] in
theorem setQ_nothrow {qI L : Ind G} {s : Store 𝕜} {i n nr nc : ℕ} {f : ℕ → ℕ → 𝕜} :
    setQ qI L s i n nr nc f ≠ .throw := by
  unfold setQ putIn put
  split
  · split <;> simp [Res.map]
  · simp

omit [RCLike 𝕜] in
theorem setR_nothrow {L rI : Ind G} {div : G} {s : Store 𝕜} {i n nr nc : ℕ} {f : ℕ → ℕ → 𝕜} :
    setR L rI div s i n nr nc f ≠ .throw := by
  unfold setR putIn put
  split
  · split <;> simp [Res.map]
  · simp

omit [RCLike 𝕜] in
theorem step_nothrow {ut complete : Bool} {qI rI L : Ind G} {div : G} {srt : List (ℕ × (G × ℕ) × ℕ)} {N b : ℕ}
    {B : Blk 𝕜} {F : Fac 𝕜} {s : Store 𝕜 × Store 𝕜 × ℕ} :
    step ut complete qI rI L div srt N b B F s ≠ .throw := by
  unfold step
  dsimp only
  generalize (if ut = true then (srt.getD b (0, (0, 0), 0)).2.2 else b) = n
  cases h1 : setQ qI L s.1 B.i1 n (qI.size B.i1) (min F.k (rI.size B.i2)) F.Q with
  | throw => exact absurd h1 setQ_nothrow
  | ub => simp [Res.bind]
  | ok Q =>
    simp only [Res.bind]
    split
    · cases h2 : setR L rI div s.2.1 n B.i2 (min F.k (rI.size B.i2)) (rI.size B.i2) F.R with
      | throw => exact absurd h2 setR_nothrow
      | ub => simp [Res.map]
      | ok Q => simp [Res.map]
    · rename_i h
      split at h
      · revert h
        cases h2 : setQ qI L Q B.i1 (s.2.2 + N) (qI.size B.i1) (qI.size B.i1 - min F.k (rI.size B.i2))
            fun x c => F.Q x (min F.k (rI.size B.i2) + c) with
        | throw => exact absurd h2 setQ_nothrow
        | ub => simp [Res.map]
        | ok Q => simp [Res.map]
      · simp at h
    · simp

omit [RCLike 𝕜] in
theorem loop_ub {ut complete : Bool} {qI rI L : Ind G} {div : G} {srt : List (ℕ × (G × ℕ) × ℕ)} {N : ℕ} :
    ∀ (ps : List (Blk 𝕜 × Fac 𝕜)) (b0 : ℕ) (s : Store 𝕜 × Store 𝕜 × ℕ) (t : ℕ) (p : Blk 𝕜 × Fac 𝕜),
      ps[t]? = some p → (∀ s, step ut complete qI rI L div srt N (b0 + t) p.1 p.2 s = .ub) →
      loop ut complete qI rI L div srt N ps b0 s = .ub := by
  intro ps
  induction ps with
  | nil => intro b0 s t p h; simp at h
  | cons q ps ih =>
    intro b0 s t p h hs
    unfold loop
    cases t with
    | zero =>
      simp only [List.getElem?_cons_zero, Option.some.injEq] at h
      subst h
      have := hs s
      rw [Nat.add_zero] at this
      rw [this]
      rfl
    | succ t =>
      cases h1 : step ut complete qI rI L div srt N b0 q.1 q.2 s with
      | throw => exact absurd h1 step_nothrow
      | ub => rfl
      | ok s' =>
        simp only [Res.bind]
        exact ih (b0 + 1) s' t p (by simpa using h) fun s => by
          have := hs s
          rwa [show b0 + (t + 1) = b0 + 1 + t by omega] at this

/-- **C95 is false, the order of the sectors.** With `UpperTriangular`, if the permutation which sorts
the blocks by column sector is not its own inverse then `qr` writes to a block that does not exist,
whatever the elements are. -/
theorem C95_order_counterexample {qr : Method 𝕜} {complete : Bool}
    (hT : ∀ nr nc M, (qr nr nc M).isSome) {qI rI : Ind G} {div : G} {bs : List (Blk 𝕜)}
    (hin : Input qI rI div bs) {b : ℕ} (hb : b < bs.length) (hr : rank bs (rank bs b) ≠ b) :
    qrQN qr true complete qI rI div bs = .ub := by
  obtain ⟨fs, hf⟩ := factors_total (complete := complete) hT qI rI bs
  obtain ⟨hl, hk⟩ := factors_ok hf
  have e : (bs.zip fs).map (·.1) = bs := List.map_fst_zip (by omega)
  have e1 : ∀ f : Blk 𝕜 → ℕ, ((bs.zip fs).map fun p => f p.1) = bs.map f := by
    intro f
    conv_rhs => rw [← e]
    rw [List.map_map]
    rfl
  have hlen : (bs.zip fs).length = bs.length := by simp [hl]
  have n1 : ((bs.zip fs).map fun p => p.1.i1).Nodup := by rw [e1 (·.i1)]; exact hin.fst.1
  have n2 : ((bs.zip fs).map fun p => p.1.i2).Nodup := by rw [e1 (·.i2)]; exact hin.fst.2
  have hmem : ∀ p ∈ bs.zip fs, p.1 ∈ bs := by
    intro p hp
    rw [← e]
    exact List.mem_map.mpr ⟨p, hp, rfl⟩
  have hil : (indLiq qI rI (bs.zip fs)).length = bs.length := by
    unfold indLiq
    rw [List.length_mergeSort]
    simp [hl]
  -- the block at place `b`, and the block at the place of that number
  have hat : ∀ n, n < bs.length → ∃ m p, (bs.zip fs)[m]? = some p ∧
      (indLiq qI rI (bs.zip fs))[n]? = some (entry qI rI (p, m)) ∧ rank bs m = n := by
    intro n hn
    have h1 := List.getElem?_eq_getElem (l := indLiq qI rI (bs.zip fs)) (i := n) (by omega)
    obtain ⟨m, p, hm, e2⟩ := entry_mem (List.mem_of_getElem? h1)
    have h2 := srt_at qI rI n2 hm
    rw [e] at h2
    rw [e2] at h1
    have hp := List.pairwise_iff_getElem.mp (srt_sorted qI rI n2)
    refine ⟨m, p, hm, h1, ?_⟩
    obtain ⟨g1, g2⟩ := List.getElem?_eq_some_iff.mp h1
    obtain ⟨g3, g4⟩ := List.getElem?_eq_some_iff.mp h2
    rcases lt_trichotomy (rank bs m) n with hlt | he | hlt
    · have := hp _ _ g3 g1 hlt
      rw [g2, g4] at this
      omega
    · exact he
    · have := hp _ _ g1 g3 hlt
      rw [g2, g4] at this
      omega
  obtain ⟨m, p, hm, h1, hrm⟩ := hat b hb
  have hml : m < bs.length := by
    rw [← hlen]
    exact (List.getElem?_eq_some_iff.mp hm).1
  obtain ⟨m', p', hm', h2, hrm'⟩ := hat m hml
  obtain ⟨q, hq⟩ : ∃ q, (bs.zip fs)[b]? = some q := ⟨_, List.getElem?_eq_getElem (by omega)⟩
  have hne : m' ≠ b := by
    rintro rfl
    rw [hrm', hrm] at hr
    exact hr rfl
  have hub : ∀ s, step true complete qI rI ⟨liq true complete qI rI (bs.zip fs), qI.dir⟩ div
      (indLiq qI rI (bs.zip fs)) bs.length (0 + b) q.1 q.2 s = .ub := by
    intro s
    have hn : ((indLiq qI rI (bs.zip fs)).getD (0 + b) (0, (0, 0), 0)).2.2 = m := by
      rw [Nat.zero_add, List.getD_eq_getElem?_getD, h1]
      rfl
    have hs : (liq true complete qI rI (bs.zip fs))[m]? =
        some (qI.qn p'.1.i1, min p'.2.k (rI.size p'.1.i2)) := by
      unfold liq
      simp only [if_true]
      rw [List.append_assoc, List.getElem?_append_left (by rw [List.length_map]; omega), List.getElem?_map, h2]
      rfl
    have hex : exQ qI ⟨liq true complete qI rI (bs.zip fs), qI.dir⟩ q.1.i1 m = false := by
      unfold exQ
      rw [Bool.and_eq_false_iff]
      right
      rw [decide_eq_false_iff_not]
      intro h
      have hqn : qI.qn q.1.i1 = qI.qn p'.1.i1 := by
        have e3 : (⟨liq true complete qI rI (bs.zip fs), qI.dir⟩ : Ind G).qn m = qI.qn p'.1.i1 := by
          simp [Ind.qn, hs]
        rw [e3] at h
        simp only at h
        rcases hin.dq with hd | hd <;> rw [hd] at h
        · simpa [sub_eq_zero, ← sub_eq_add_neg] using h
        · have h' : -qI.qn q.1.i1 + qI.qn p'.1.i1 = 0 := by simpa using h
          rw [neg_add_eq_zero] at h'
          exact h'
      have h3 := hin.q_inj _ _ (hin.lt1 _ (hmem q (List.mem_of_getElem? hq)))
        (hin.lt1 _ (hmem p' (List.mem_of_getElem? hm'))) hqn
      have g1 := List.getElem?_eq_some_iff.mp hq
      have g2 := List.getElem?_eq_some_iff.mp hm'
      apply hne
      refine (List.Nodup.getElem_inj_iff n1 (i := m') (j := b) (hi := by simpa using g2.1)
        (hj := by simpa using g1.1)).mp ?_
      rw [List.getElem_map, List.getElem_map, g1.2, g2.2]
      exact h3.symm
    unfold step
    simp only [if_true, hn]
    rw [setQ, hex]
    rfl
  unfold qrQN
  rw [if_neg (by simp), if_neg (by omega), hf]
  simp only [Res.bind]
  rw [loop_ub (bs.zip fs) 0 _ b q hq hub]

/-- **C95, with `UpperTriangular`.** Whenever `qr` returns, its result is right: if the sectors are in an
order which it does not treat correctly then it does not return. -/
theorem C95_upper_partial {qr : Method 𝕜} {complete : Bool} (hqr : qr.Right complete)
    (hT : ∀ nr nc M, (qr nr nc M).isSome) {qI rI : Ind G} {div : G}
    {bs : List (Blk 𝕜)} (hin : Input qI rI div bs)
    {L : Ind G} {Q R : Store 𝕜} (h : qrQN qr true complete qI rI div bs = .ok (L, Q, R)) :
    tens qI rI bs = mat qI L Q * mat L rI R ∧ (mat qI L Q)ᴴ * mat qI L Q = 1 ∧
      (complete = true → mat qI L Q * (mat qI L Q)ᴴ = 1) ∧
      ∀ (r : L.Pos) (c : rI.Pos), rI.place c < L.place r → mat L rI R r c = 0 := by
  have hord : Order true complete qI rI bs := by
    refine Or.inl ⟨rfl, fun b hb => ?_⟩
    by_contra hr
    rw [C95_order_counterexample hT hin hb hr] at h
    cases h
  obtain ⟨h1, h2, h3, h4⟩ := C95_qr_partial hqr hin hord h
  exact ⟨h1, h2, h3, h4 rfl⟩

/-- There is a method which is right and always returns. -/
theorem exists_method (complete : Bool) :
    ∃ qr : Method 𝕜, qr.Right complete ∧ ∀ nr nc M, (qr nr nc M).isSome := by
  have key : ∀ (nr nc : ℕ) (M : ℕ → ℕ → 𝕜), ∃ QR : (ℕ → ℕ → 𝕜) × (ℕ → ℕ → 𝕜),
      IsQr nr nc (rrows complete nr nc) M QR.1 QR.2 := by
    intro nr nc M
    have h1 : rrows complete nr nc ≤ nr := by unfold rrows; split <;> [omega; (split <;> omega)]
    have h2 : min nr nc ≤ rrows complete nr nc := by unfold rrows; split <;> [omega; (split <;> omega)]
    obtain ⟨Q, R, hQ, hA, ht, -⟩ := SvdRef.exists_qr h1 h2 (Matrix.of fun (i : Fin nr) (j : Fin nc) => M i j)
    refine ⟨(fun x c => if h : x < nr ∧ c < rrows complete nr nc then Q ⟨x, h.1⟩ ⟨c, h.2⟩ else 0,
      fun c y => if h : c < rrows complete nr nc ∧ y < nc then R ⟨c, h.1⟩ ⟨y, h.2⟩ else 0), ?_, ?_, ?_⟩
    · intro c c' hc hc'
      have := congrFun (congrFun hQ ⟨c, hc⟩) ⟨c', hc'⟩
      rw [Matrix.mul_apply, Matrix.one_apply] at this
      rw [Finset.sum_range]
      simp only [hc, hc', Fin.is_lt, and_self, dite_true]
      simpa [Matrix.conjTranspose_apply] using this
    · intro x y hx hy
      have := congrFun (congrFun hA ⟨x, hx⟩) ⟨y, hy⟩
      rw [Matrix.mul_apply, Matrix.of_apply] at this
      rw [this, Finset.sum_range]
      simp [hx, hy]
    · intro c y hc hy hlt
      simp only [hc, hy, and_self, dite_true]
      exact ht _ _ hlt
  exact ⟨fun nr nc M => some (key nr nc M).choose, fun nr nc M Q R h => by
    simp only [Option.some.injEq] at h
    have := (key nr nc M).choose_spec
    rw [h] at this
    exact this, fun _ _ _ => rfl⟩

/-! ### Examples -/

/-- Three sectors, and the same in another order. -/
def q3 : Ind ℤ := ⟨[(0, 1), (1, 1), (2, 1)], 1⟩
def r3 : Ind ℤ := ⟨[(1, 1), (2, 1), (0, 1)], -1⟩
def bs3 : List (Blk ℝ) := [⟨0, 2, fun _ _ => 1⟩, ⟨1, 0, fun _ _ => 2⟩, ⟨2, 1, fun _ _ => 3⟩]

theorem input3 : Input q3 r3 0 bs3 where
  dq := Or.inl rfl
  dr := Or.inr rfl
  q_inj := fun i j hi hj => (by decide : ∀ i < q3.nblock, ∀ j < q3.nblock,
    q3.qn i = q3.qn j → i = j) i hi j hj
  r_inj := fun i j hi hj => (by decide : ∀ i < r3.nblock, ∀ j < r3.nblock,
    r3.qn i = r3.qn j → i = j) i hi j hj
  lt1 := by simp [bs3, q3, Ind.nblock]
  lt2 := by simp [bs3, r3, Ind.nblock]
  flux := by simp [bs3, q3, r3, Ind.qn]
  nodup := by simp [bs3]

/-- A matrix of three elements, all in different sectors, cannot be decomposed. -/
example {qr : Method ℝ} (hT : ∀ nr nc M, (qr nr nc M).isSome) (complete : Bool) :
    qrQN qr true complete q3 r3 0 bs3 = .ub :=
  C95_order_counterexample hT input3 (b := 0) (by decide) (by simp [rank, bs3])

/-- A matrix with a block of two rows and one column, one with one row and two columns, and a sector
without a block; the column sectors in the reverse order. -/
def q2 : Ind ℤ := ⟨[(0, 2), (1, 1), (7, 3)], 1⟩
def r2 : Ind ℤ := ⟨[(1, 2), (0, 1)], -1⟩
def bs2 : List (Blk ℝ) := [⟨0, 1, fun x _ => 1 + x⟩, ⟨1, 0, fun _ y => 2 + y⟩]

theorem input2 : Input q2 r2 0 bs2 where
  dq := Or.inl rfl
  dr := Or.inr rfl
  q_inj := fun i j hi hj => (by decide : ∀ i < q2.nblock, ∀ j < q2.nblock,
    q2.qn i = q2.qn j → i = j) i hi j hj
  r_inj := fun i j hi hj => (by decide : ∀ i < r2.nblock, ∀ j < r2.nblock,
    r2.qn i = r2.qn j → i = j) i hi j hj
  lt1 := by simp [bs2, q2, Ind.nblock]
  lt2 := by simp [bs2, r2, Ind.nblock]
  flux := by simp [bs2, q2, r2, Ind.qn]
  nodup := by simp [bs2]

theorem order2 (complete : Bool) : Order true complete q2 r2 bs2 :=
  Or.inl ⟨rfl, C95_order (Or.inr (by simp [bs2]))⟩

/-- It is decomposed, for both values of `Complete`. -/
example (complete : Bool) : ∃ (qr : Method ℝ) (L : Ind ℤ) (Q R : Store ℝ),
    qrQN qr true complete q2 r2 0 bs2 = .ok (L, Q, R) ∧
      tens q2 r2 bs2 = mat q2 L Q * mat L r2 R ∧ (mat q2 L Q)ᴴ * mat q2 L Q = 1 ∧
      (complete = true → mat q2 L Q * (mat q2 L Q)ᴴ = 1) ∧
      ∀ (r : L.Pos) (c : r2.Pos), r2.place c < L.place r → mat L r2 R r c = 0 := by
  obtain ⟨qr, hqr, hT⟩ := exists_method (𝕜 := ℝ) complete
  obtain ⟨⟨L, Q, R⟩, h⟩ := C95_returns_partial hT input2 (order2 complete) (by simp [bs2])
  exact ⟨qr, L, Q, R, h, C95_upper_partial hqr hT input2 h⟩

/-- The matrix is not zero. -/
example : tens q2 r2 bs2 ⟨(0 : Fin 3), (1 : Fin 2)⟩ ⟨(1 : Fin 2), (0 : Fin 1)⟩ = 2 := by
  show (1 : ℝ) + ((1 : ℕ) : ℝ) = 2
  norm_num

/-- One block of three rows and two columns. -/
def q1 : Ind ℤ := ⟨[(0, 3)], 1⟩
def r1 : Ind ℤ := ⟨[(0, 2)], -1⟩
def bs1 : List (Blk ℝ) := [⟨0, 0, fun x y => if x = y then 1 else 0⟩]

theorem input1 : Input q1 r1 0 bs1 where
  dq := Or.inl rfl
  dr := Or.inr rfl
  q_inj := fun i j hi hj => (by decide : ∀ i < q1.nblock, ∀ j < q1.nblock,
    q1.qn i = q1.qn j → i = j) i hi j hj
  r_inj := fun i j hi hj => (by decide : ∀ i < r1.nblock, ∀ j < r1.nblock,
    r1.qn i = r1.qn j → i = j) i hi j hj
  lt1 := by simp [bs1, q1, Ind.nblock]
  lt2 := by simp [bs1, r1, Ind.nblock]
  flux := by simp [bs1, q1, r1, Ind.qn]
  nodup := by simp [bs1]

/-- **C95 is false, `Complete` and not `UpperTriangular`.** For a block with more rows than columns
`Q` is not orthogonal, and `Q` times `R` is not the matrix, whatever method decomposes the block. -/
theorem C95_complete_counterexample {qr : Method ℝ} (hqr : qr.Right true)
    (hT : ∀ nr nc M, (qr nr nc M).isSome) : ∃ L Q R, qrQN qr false true q1 r1 0 bs1 = .ok (L, Q, R) ∧
      (mat q1 L Q)ᴴ * mat q1 L Q ≠ 1 ∧ tens q1 r1 bs1 ≠ mat q1 L Q * mat L r1 R := by
  obtain ⟨⟨U, V⟩, h⟩ := Option.isSome_iff_exists.mp (hT 3 2 fun x y => if x = y then 1 else 0)
  obtain ⟨ho, he, ht⟩ := hqr _ _ _ _ _ h
  have hk : rrows true 3 2 = 3 := rfl
  rw [hk] at ho he ht
  refine ⟨⟨[(0, 3)], 1⟩, fun i n t => if i = 0 ∧ n = 0 then (if t < 6 then U (t % 3) (t / 3) else 0) else 0,
    fun n i t => if n = 0 ∧ i = 0 then (if t < 4 then V (t % 2) (t / 2) else 0) else 0, ?_, ?_, ?_⟩
  · have hf : factors qr true q1 r1 bs1 = .ok [⟨3, U, V⟩] := by
      simp only [bs1, factors, show q1.size 0 = 3 from rfl, show r1.size 0 = 2 from rfl, h]
      rfl
    unfold qrQN
    rw [if_neg (by simp), if_neg (by simp [bs1]), hf]
    have hL : liq false true q1 r1 (bs1.zip [(⟨3, U, V⟩ : Fac ℝ)]) = [(0, 3)] := rfl
    have hz : zerob q1 bs1 = [] := rfl
    simp only [Res.bind, hL, hz]
    simp [loop, step, setQ, setR, exQ, exR, putIn, put, zeros, bs1, q1, r1, Ind.size, Ind.qn, Ind.nblock,
      Res.bind, Res.map]
    constructor <;> funext i n <;> split <;> rfl
  · intro h1
    have := congrFun (congrFun h1 ⟨(0 : Fin 1), (2 : Fin 3)⟩) ⟨(0 : Fin 1), (2 : Fin 3)⟩
    rw [Matrix.mul_apply, Matrix.one_apply, if_pos rfl] at this
    rw [Finset.sum_eq_zero] at this
    · exact zero_ne_one this
    · rintro ⟨i, x⟩ -
      obtain rfl : i = (0 : Fin 1) := Subsingleton.elim (α := Fin 1) _ _
      have h6 : ¬ (x.val + 2 * 3 < 6) := by omega
      apply mul_eq_zero_of_right
      show (if (0 : ℕ) = 0 ∧ (0 : ℕ) = 0 then
        (if x.val + 2 * 3 < 6 then U ((x.val + 2 * 3) % 3) ((x.val + 2 * 3) / 3) else 0) else 0) = 0
      rw [if_neg h6, ite_self]
  · intro h1
    have h2 := congrFun (congrFun h1 ⟨(0 : Fin 1), (0 : Fin 3)⟩) ⟨(0 : Fin 1), (1 : Fin 2)⟩
    have h3 : tens q1 r1 bs1 ⟨(0 : Fin 1), (0 : Fin 3)⟩ ⟨(0 : Fin 1), (1 : Fin 2)⟩ = 0 := rfl
    rw [h3, Matrix.mul_apply] at h2
    have h4 := h2.trans ((Fintype.sum_sigma _).trans ((Fin.sum_univ_one (M := ℝ) _).trans
      (Fin.sum_univ_three (M := ℝ) _)))
    have h5 : (0 : ℝ) = U 0 0 * V 1 1 + U 0 1 * 0 + 0 * 0 := h4
    have e1 := he 0 0 (by omega) (by omega)
    have e2 := he 1 0 (by omega) (by omega)
    have e3 := he 1 1 (by omega) (by omega)
    have t1 := ht 1 0 (by omega) (by omega) (by omega)
    have t2 := ht 2 0 (by omega) (by omega) (by omega)
    have t3 := ht 2 1 (by omega) (by omega) (by omega)
    simp only [Finset.sum_range_succ, Finset.sum_range_zero, t1, t2, t3] at e1 e2 e3
    norm_num at e1 e2 e3 h5
    rcases h5 with h5 | h5
    · rw [h5] at e1
      norm_num at e1
    · rcases e2 with e2 | e2
      · rw [h5, e2] at e3
        norm_num at e3
      · rw [e2] at e1
        norm_num at e1

end Verif.QrQN
