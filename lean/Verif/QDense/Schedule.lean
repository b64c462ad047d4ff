import Verif.QDense.ContractProps

/-!
# The parallel block contraction

Model of `_loopContractedBlocksOMP` (qutil.h:276-350) and of the parallel part of
`getContractedOffsets` (qutil.h:136-219).
-/

namespace Verif.QDense

open Verif Verif.Tensor Verif.Index Verif.Index.IndexSet Finset

/-! ## Threads -/

/-- Memory locations of the parallel region: elements of `C`, the flags `betas`, and memory private to
the iteration `g` of the parallel loop. -/
inductive Loc
  | c (a : Int)
  | beta (k : Nat)
  | priv (g n : Nat)
  deriving DecidableEq

abbrev St (K : Type*) := Loc → K

section
variable {K : Type*}

/-- Runs the steps of one iteration to the end. -/
def runAll (p : List (St K → St K)) (s : St K) : St K := p.foldl (fun s f => f s) s

/-- Runs the iterations of a parallel loop as the schedule says: `g` in the schedule lets iteration
`g` perform its next step. -/
def runSched : List Nat → (Nat → List (St K → St K)) → St K → (Nat → List (St K → St K)) × St K
  | [], p, s => (p, s)
  | g :: sch, p, s =>
    match p g with
    | [] => runSched sch p s
    | f :: fs => runSched sch (Function.update p g fs) (f s)

/-- A step touches only the locations `R`: others are not changed, and what it writes depends only on
locations in `R`. -/
def Confined (R : Loc → Prop) (f : St K → St K) : Prop :=
  (∀ s l, ¬ R l → f s l = s l) ∧ ∀ s s', (∀ l, R l → s l = s' l) → ∀ l, R l → f s l = f s' l

theorem runAll_out {R : Loc → Prop} {p : List (St K → St K)} (h : ∀ f ∈ p, Confined R f) (s : St K) {l : Loc}
    (hl : ¬ R l) : runAll p s l = s l := by
  induction p generalizing s with
  | nil => rfl
  | cons f p ih =>
    have := ih (fun g hg => h g (by simp [hg])) (f s)
    simp only [runAll, List.foldl_cons] at this ⊢
    rw [this, (h f (by simp)).1 s l hl]

theorem runAll_in {R : Loc → Prop} {p : List (St K → St K)} (h : ∀ f ∈ p, Confined R f) {s s' : St K}
    (hs : ∀ l, R l → s l = s' l) {l : Loc} (hl : R l) : runAll p s l = runAll p s' l := by
  induction p generalizing s s' with
  | nil => exact hs l hl
  | cons f p ih =>
    simp only [runAll, List.foldl_cons]
    exact ih (fun g hg => h g (by simp [hg])) (fun l hl => (h f (by simp)).2 s s' hs l hl)

theorem runAll_append (p q : List (St K → St K)) (s : St K) : runAll (p ++ q) s = runAll q (runAll p s) := by
  simp [runAll]

/-- Iterations confined to disjoint regions do not see each other, whatever the schedule. -/
theorem runSched_spec {R : Nat → Loc → Prop} (hd : ∀ g g' l, R g l → R g' l → g = g') (sch : List Nat)
    (p : Nat → List (St K → St K)) (hp : ∀ g, ∀ f ∈ p g, Confined (R g) f) (s : St K) :
    (∀ g l, R g l → runAll ((runSched sch p s).1 g) (runSched sch p s).2 l = runAll (p g) s l) ∧
    ∀ l, (∀ g, ¬ R g l) → (runSched sch p s).2 l = s l := by
  induction sch generalizing p s with
  | nil => exact ⟨fun _ _ _ => rfl, fun _ _ => rfl⟩
  | cons g sch ih =>
    unfold runSched
    cases hg : p g with
    | nil => exact ih p hp s
    | cons f fs =>
      simp only
      have hf : Confined (R g) f := hp g f (by rw [hg]; simp)
      have hp' : ∀ g', ∀ f' ∈ Function.update p g fs g', Confined (R g') f' := by
        intro g' f' hf'
        by_cases e : g' = g
        · subst e
          rw [Function.update_self] at hf'
          exact hp g' f' (by rw [hg]; simp [hf'])
        · rw [Function.update_of_ne e] at hf'
          exact hp g' f' hf'
      obtain ⟨h1, h2⟩ := ih (Function.update p g fs) hp' (f s)
      refine ⟨fun g' l hl => ?_, fun l hl => ?_⟩
      · rw [h1 g' l hl]
        by_cases e : g' = g
        · subst e
          rw [Function.update_self, hg]
          rfl
        · rw [Function.update_of_ne e]
          refine runAll_in (hp g') (fun l' hl' => ?_) hl
          exact hf.1 s l' (fun hc => e (hd g' g l' hl' hc))
      · rw [h2 l hl, hf.1 s l (hl g)]

/-- Every finite set of finite iterations can be scheduled to the end: the schedule that runs one
iteration after the other. -/
theorem runSched_finish (n : Nat) (p : Nat → List (St K → St K)) (hp : ∀ g, n ≤ g → p g = []) (s : St K) :
    ∃ sch final, runSched sch p s = (fun _ => [], final) := by
  induction n generalizing p s with
  | zero => exact ⟨[], s, by simp only [runSched]; congr 1; funext g; exact hp g (Nat.zero_le _)⟩
  | succ n ih =>
    have hone : ∀ (l : List (St K → St K)) (p : Nat → List (St K → St K)) (s : St K), p n = l → ∀ sch,
        runSched (List.replicate l.length n ++ sch) p s = runSched sch (Function.update p n []) (runAll l s) := by
      intro l
      induction l with
      | nil =>
        intro p s h sch
        have : Function.update p n [] = p := by rw [← h]; simp
        rw [this]; rfl
      | cons f l ihl =>
        intro p s h sch
        rw [List.length_cons, List.replicate_succ, List.cons_append, runSched, h]
        dsimp only
        rw [ihl _ _ (by simp)]
        simp [runAll]
    obtain ⟨sch, final, h⟩ := ih (Function.update p n []) (fun g hg => by
      by_cases e : g = n
      · subst e; simp
      · rw [Function.update_of_ne e]; exact hp g (by omega)) (runAll (p n) s)
    exact ⟨_, final, (hone (p n) p s rfl sch).trans h⟩

end

/-! ## The plan -/

/-- The loop computing `offset` and `nrepeat` (qutil.h:297-318); `i` is the loop counter, `prev` the
label of task `i-1`. The vectors of length `nnz` are functions with a bounds check. -/
def planLoop (nnz : Nat) : Block → List Block → Nat → Nat → (Nat → Nat) → (Nat → Nat) →
    Res ((Nat → Nat) × (Nat → Nat))
  | _, [], _, _, off, rep => .ok (off, rep)
  | prev, c :: cs, i, n, off, rep =>
    if c = prev then
      if n < nnz then planLoop nnz c cs (i + 1) n off (Function.update rep n (rep n + 1)) else .ub
    else
      if n + 1 < nnz then planLoop nnz c cs (i + 1) (n + 1) (Function.update off (n + 1) i) rep else .ub

/-- `offset`, `nrepeat` (qutil.h:293-318). -/
def plan (nnz : Nat) : List Block → Res ((Nat → Nat) × (Nat → Nat))
  | [] => .ok (fun _ => 0, fun _ => 1)
  | c :: cs => planLoop nnz c cs 1 0 (fun _ => 0) (fun _ => 1)

/-- Number of distinct labels in a list where equal labels are adjacent. -/
def nruns : List Block → Nat
  | [] => 0
  | c :: cs => (uniqBlocks (c :: cs)).length

theorem uniqBlocks_cons_length (a b : Block) (l : List Block) :
    (uniqBlocks (a :: b :: l)).length = (uniqBlocks (b :: l)).length + if a = b then 0 else 1 := by
  rw [uniqBlocks]
  split_ifs <;> simp

/-- What the plan is: consecutive ranges of tasks, one per block, each with one label. -/
structure PlanOK (cs : List Block) (nnz : Nat) (off rep : Nat → Nat) : Prop where
  zero : 0 < nnz → off 0 = 0
  next : ∀ j, j + 1 < nnz → off (j + 1) = off j + rep j
  last : ∀ j, j + 1 = nnz → off j + rep j = cs.length
  pos : ∀ j, j < nnz → 0 < rep j
  same : ∀ j, j < nnz → ∀ k, off j ≤ k → k < off j + rep j → cs[k]? = cs[off j]?
  lab : ∀ j, j < nnz → cs[off j]? = (uniqBlocks cs)[j]?

theorem uniqBlocks_head (a : Block) (l : List Block) : (uniqBlocks (a :: l))[0]? = some a := by
  induction l generalizing a with
  | nil => rfl
  | cons b l ih =>
    rw [uniqBlocks]
    split_ifs with h
    · rw [ih, h]
    · rfl

theorem planLoop_spec (nnz : Nat) (all pre : List Block) (prev : Block) (cs : List Block) (n : Nat)
    (off rep : Nat → Nat) (hall : all = pre ++ prev :: cs)
    (hn : n + (uniqBlocks (prev :: cs)).length = nnz)
    (h0 : off 0 = 0) (hnext : ∀ j, j + 1 ≤ n → off (j + 1) = off j + rep j)
    (hcur : off n + rep n = pre.length + 1) (hpos : ∀ j, 0 < rep j) (hrep : ∀ j, n < j → rep j = 1)
    (hsame : ∀ j, j ≤ n → ∀ k, off j ≤ k → k < off j + rep j → all[k]? = all[off j]?)
    (upre : List Block) (hu1 : uniqBlocks all = upre ++ uniqBlocks (prev :: cs)) (hu2 : upre.length = n)
    (hlab : ∀ j, j < n → all[off j]? = upre[j]?) :
    ∃ off' rep', planLoop nnz prev cs (pre.length + 1) n off rep = .ok (off', rep') ∧
      PlanOK all nnz off' rep' := by
  induction cs generalizing pre prev n off rep upre with
  | nil =>
    have hn1 : n + 1 = nnz := by simpa [uniqBlocks] using hn
    refine ⟨off, rep, rfl, ⟨fun _ => h0, fun j hj => hnext j (by omega), ?_, fun j _ => hpos j,
      fun j hj => hsame j (by omega), ?_⟩⟩
    · intro j hj
      have : j = n := by omega
      subst this
      rw [hcur, hall]; simp
    · intro j hj
      rw [hu1]
      by_cases e : j < n
      · rw [hlab j e, List.getElem?_append_left (by omega)]
      · have : j = n := by omega
        subst this
        rw [← hsame j (Nat.le_refl _) pre.length (by have := hpos j; omega) (by omega), hall]
        rw [← hu2]
        simp [uniqBlocks]
  | cons c cs ih =>
    rw [uniqBlocks_cons_length] at hn
    have hu : 0 < (uniqBlocks (c :: cs)).length := by
      have : c ∈ uniqBlocks (c :: cs) := (uniqBlocks_mem _ _).2 (by simp)
      exact List.length_pos_of_mem this
    have hgetp : all[pre.length]? = some prev := by rw [hall]; simp
    have hgetc : all[pre.length + 1]? = some c := by rw [hall]; simp
    have hoffn : off n ≤ pre.length := by have := hpos n; omega
    unfold planLoop
    by_cases hc : c = prev
    · subst hc
      rw [if_pos rfl] at hn ⊢
      rw [if_pos (by omega)]
      have := ih (pre := pre ++ [c]) (prev := c) (n := n) (off := off)
        (rep := Function.update rep n (rep n + 1)) (by rw [hall]; simp) (by simpa using hn) h0
        (fun j hj => by rw [Function.update_of_ne (by omega)]; exact hnext j hj)
        (by rw [Function.update_self]; simp; omega)
        (fun j => by
          by_cases e : j = n
          · subst e; rw [Function.update_self]; omega
          · rw [Function.update_of_ne e]; exact hpos j)
        (fun j hj => by rw [Function.update_of_ne (by omega)]; exact hrep j hj)
        (fun j hj k h1 h2 => by
          by_cases e : j = n
          · subst e
            rw [Function.update_self] at h2
            by_cases hk : k < off j + rep j
            · exact hsame j hj k h1 hk
            · have : k = pre.length + 1 := by omega
              subst this
              rw [hgetc, ← hgetp]
              exact hsame j hj pre.length hoffn (by omega)
          · rw [Function.update_of_ne e] at h2
            exact hsame j hj k h1 h2)
        upre (by rw [hu1, uniqBlocks, if_pos rfl]) hu2 hlab
      simpa using this
    · have hcp : ¬ prev = c := fun e => hc e.symm
      rw [if_neg hcp] at hn
      rw [if_neg hc, if_pos (by omega)]
      have := ih (pre := pre ++ [prev]) (prev := c) (n := n + 1)
        (off := Function.update off (n + 1) (pre.length + 1)) (rep := rep) (by rw [hall]; simp) (by omega)
        (by rw [Function.update_of_ne (by omega)]; exact h0)
        (fun j hj => by
          rw [Function.update_of_ne (a := j) (by omega)]
          by_cases e : j = n
          · subst e; rw [Function.update_self]; omega
          · rw [Function.update_of_ne (by omega)]; exact hnext j (by omega))
        (by rw [Function.update_self, hrep (n + 1) (by omega)]; simp)
        hpos (fun j hj => hrep j (by omega))
        (fun j hj k h1 h2 => by
          by_cases e : j = n + 1
          · subst e
            rw [Function.update_self] at h1 h2 ⊢
            rw [hrep (n + 1) (by omega)] at h2
            have : k = pre.length + 1 := by omega
            rw [this]
          · rw [Function.update_of_ne e] at h1 h2 ⊢
            exact hsame j (by omega) k h1 h2)
        (upre ++ [prev]) (by rw [hu1, uniqBlocks, if_neg hcp]; simp) (by simp [hu2])
        (fun j hj => by
          rw [Function.update_of_ne (by omega)]
          by_cases e : j < n
          · rw [hlab j e, List.getElem?_append_left (by omega)]
          · have : j = n := by omega
            subst this
            rw [← hsame j (Nat.le_refl _) pre.length hoffn (by omega), hgetp, ← hu2]
            simp)
      simpa using this

theorem plan_spec (cs : List Block) :
    ∃ off rep, plan (uniqBlocks cs).length cs = .ok (off, rep) ∧ PlanOK cs (uniqBlocks cs).length off rep := by
  cases cs with
  | nil =>
    refine ⟨_, _, rfl, ⟨fun _ => rfl, ?_, ?_, ?_, ?_, ?_⟩⟩
    all_goals intro j hj; simp [uniqBlocks] at hj
  | cons c cs =>
    have := planLoop_spec (uniqBlocks (c :: cs)).length (c :: cs) [] c cs 0 (fun _ => 0) (fun _ => 1) rfl
      (by simp) rfl (by intro j hj; omega) rfl (fun _ => by omega) (fun _ _ => rfl)
      (by intro j hj k h1 h2; have : k = 0 := by omega
          rw [this]) [] (by simp) rfl (by intro j hj; omega)
    exact this

/-- Group `j` of the plan. -/
def group (sorted : List Task) (off rep : Nat → Nat) (j : Nat) : List Task :=
  (sorted.drop (off j)).take (rep j)

theorem PlanOK.off_le {cs : List Block} {nnz : Nat} {off rep : Nat → Nat} (h : PlanOK cs nnz off rep) :
    ∀ j, j < nnz → off j + rep j ≤ cs.length := by
  have : ∀ d j, j + d + 1 = nnz → off j + rep j ≤ cs.length := by
    intro d
    induction d with
    | zero => intro j hj; exact (h.last j (by omega)).le
    | succ d ih =>
      intro j hj
      have h1 := ih (j + 1) (by omega)
      have h2 := h.next j (by omega)
      have h3 := h.pos (j + 1) (by omega)
      omega
  intro j hj
  exact this (nnz - j - 1) j (by omega)

theorem flatten_groups {cs : List Block} {nnz : Nat} {off rep : Nat → Nat} (h : PlanOK cs nnz off rep)
    (sorted : List Task) (hl : sorted.length = cs.length) (hn : nnz = 0 → cs = []) :
    (List.range nnz).flatMap (group sorted off rep) = sorted := by
  have key : ∀ m, m + 1 ≤ nnz → (List.range (m + 1)).flatMap (group sorted off rep) =
      sorted.take (off m + rep m) := by
    intro m
    induction m with
    | zero =>
      intro hm
      simp only [Nat.zero_add, List.range_one, List.flatMap_cons, List.flatMap_nil, List.append_nil, group]
      rw [h.zero (by omega)]
      simp
    | succ m ih =>
      intro hm
      rw [List.range_succ, List.flatMap_append, ih (by omega), ← h.next m (by omega)]
      simp only [List.flatMap_cons, List.flatMap_nil, List.append_nil, group]
      rw [List.take_add]
  cases nnz with
  | zero =>
    have := hn rfl
    rw [this] at hl
    simp at hl
    simp [hl]
  | succ m =>
    rw [key m (Nat.le_refl _), h.last m rfl, ← hl, List.take_length]

end Verif.QDense
