import Verif.MPS.Limits

/-! # The orthogonality limits are sound -/

namespace Verif.Limits

variable {T : Type*}

/-- What a factorization has to do: one of the two tensors is orthogonal, they have an index in common, and the indices they
have in common with the neighbours are kept. -/
structure Factor (o : Ops T) (LO RO : T → Prop) : Prop where
  left : ∀ a b, o.link a b → LO (o.orthL a b).1
  right : ∀ a b, o.link a b → RO (o.orthR a b).2
  midL : ∀ a b, o.link a b → o.link (o.orthL a b).1 (o.orthL a b).2
  midR : ∀ a b, o.link a b → o.link (o.orthR a b).1 (o.orthR a b).2
  prevL : ∀ x a b, o.link x a → o.link a b → o.link x (o.orthL a b).1
  prevR : ∀ x a b, o.link x a → o.link a b → o.link x (o.orthR a b).1
  nextL : ∀ a b y, o.link b y → o.link a b → o.link (o.orthL a b).2 y
  nextR : ∀ a b y, o.link b y → o.link a b → o.link (o.orthR a b).2 y

/-- The limits are sound: sites up to the left one are left-orthogonal, those from the right one on right-orthogonal, and at least
one site is in between. Neighbouring sites have an index in common. -/
structure Sound (o : Ops T) (LO RO : T → Prop) (s : MPS T) : Prop where
  lo : 0 ≤ s.l
  gap : s.l + 2 ≤ s.r
  hi : s.r ≤ s.N + 1
  left : ∀ i, 1 ≤ i → i ≤ s.l → LO (s.t i)
  right : ∀ i : Int, s.r ≤ i → i ≤ s.N → RO (s.t i)
  linked : ∀ i : Int, 1 ≤ i → i < s.N → o.link (s.t i) (s.t (i + 1))

variable {o : Ops T} {LO RO : T → Prop}

theorem set2_fst (s : MPS T) (b : Int) (p : T × T) : (set2 s b p).t b = p.1 := by
  simp [set2]

theorem set2_snd (s : MPS T) (b : Int) (p : T × T) : (set2 s b p).t (b + 1) = p.2 := by simp [set2]

theorem set2_ne (s : MPS T) {b i : Int} (p : T × T) (h : i ≠ b) (h' : i ≠ b + 1) : (set2 s b p).t i = s.t i := by
  simp [set2, h, h']

theorem linked_set2 {s : MPS T} {b : Int} {p : T × T} (h : ∀ i : Int, 1 ≤ i → i < s.N → o.link (s.t i) (s.t (i + 1)))
    (hm : o.link p.1 p.2) (hp : 1 ≤ b - 1 → o.link (s.t (b - 1)) p.1)
    (hn : b + 2 ≤ s.N → o.link p.2 (s.t (b + 2))) (i : Int) (h1 : 1 ≤ i) (h2 : i < s.N) :
    o.link ((set2 s b p).t i) ((set2 s b p).t (i + 1)) := by
  by_cases e1 : i = b - 1
  · subst e1
    rw [set2_ne s p (by omega) (by omega), show b - 1 + 1 = b by ring, set2_fst]
    exact hp h1
  · by_cases e2 : i = b
    · subst e2
      rw [set2_fst, set2_snd]; exact hm
    · by_cases e3 : i = b + 1
      · subst e3
        rw [set2_snd, set2_ne s p (by omega) (by omega), show b + 1 + 1 = b + 2 by ring]
        exact hn (by omega)
      · rw [set2_ne s p e2 e3, set2_ne s p (by omega) (by omega)]
        exact h i h1 h2

/-- After a round of the first loop. -/
def adv (o : Ops T) (s : MPS T) : MPS T :=
  { set2 s (s.l + 1) (o.orthL (s.t (s.l + 1)) (s.t (s.l + 1 + 1))) with l := s.l + 1, r := max s.r (s.l + 3) }

/-- After a round of the second loop. -/
def ret (o : Ops T) (s : MPS T) : MPS T :=
  { set2 s (s.r - 2) (o.orthR (s.t (s.r - 2)) (s.t (s.r - 2 + 1))) with r := s.r - 1, l := min s.l (s.r - 3) }

theorem ref_eq {s : MPS T} {i : Int} (h : 0 ≤ i) (h' : i ≤ s.N + 1) :
    ref s i = .ok { s with l := min s.l (i - 1), r := max s.r (i + 1) } := by
  have hi : (if i < 0 then (s.N : Int) + i + 1 else i) = i := if_neg (by omega)
  unfold ref
  simp only [hi]
  rw [if_pos ⟨h, by omega⟩]
  simp only [Res.ok.injEq, MPS.mk.injEq, true_and]
  omega

theorem stepL_eq {s : MPS T} (h : Sound o LO RO s) (hl : s.l + 2 ≤ s.N) : stepL o s = .ok (adv o s) := by
  have h0 := h.lo
  have e0 : (if s.l < 0 then 0 else s.l) = s.l := if_neg (by omega)
  unfold stepL
  simp only [e0]
  rw [ref_eq (by omega) (by simp only; omega)]
  simp only [Res.bind_ok]
  rw [ref_eq (by omega) (by simp only; omega)]
  simp only [Res.bind_ok]
  unfold orthMPS
  simp only
  rw [if_pos (h.linked _ (by omega) (by omega))]
  simp only [adv, set2, Res.ok.injEq, MPS.mk.injEq, true_and]
  omega

theorem svdStepL_eq {s : MPS T} (h : Sound o LO RO s) (hl : s.l + 2 ≤ s.N) : svdStepL o.orthL s = .ok (adv o s) := by
  have h0 := h.lo
  have e0 : (if s.l < 0 then 0 else s.l) = s.l := if_neg (by omega)
  have e : s.l + 2 = s.l + 1 + 1 := by ring
  unfold svdStepL
  simp only [e0, svdBond]
  rw [if_neg (by omega), if_neg (by simp), if_neg (by omega)]
  simp only [adv, set2, Res.ok.injEq, MPS.mk.injEq, true_and, e]
  omega

theorem stepR_eq {s : MPS T} (h : Sound o LO RO s) (hr : 3 ≤ s.r) : stepR o s = .ok (ret o s) := by
  have h0 := h.hi
  have e0 : (if s.r > s.N + 1 then (s.N : Int) + 1 else s.r) = s.r := if_neg (by omega)
  unfold stepR
  simp only [e0]
  rw [ref_eq (by omega) (by simp only; omega)]
  simp only [Res.bind_ok]
  rw [ref_eq (by omega) (by simp only; omega)]
  simp only [Res.bind_ok]
  unfold orthMPS
  simp only
  rw [if_pos (h.linked _ (by omega) (by omega))]
  simp only [ret, set2, Res.ok.injEq, MPS.mk.injEq, true_and]
  omega

theorem svdStepR_eq {s : MPS T} (h : Sound o LO RO s) (hr : 3 ≤ s.r) : svdStepR o.orthR s = .ok (ret o s) := by
  have h0 := h.hi
  have e0 : (if s.r > s.N + 1 then (s.N : Int) + 1 else s.r) = s.r := if_neg (by omega)
  have e : s.r - 1 = s.r - 2 + 1 := by ring
  unfold svdStepR
  simp only [e0, svdBond]
  rw [if_neg (by simp), if_neg (by omega), if_neg (by omega)]
  simp only [ret, set2, Res.ok.injEq, MPS.mk.injEq, true_and, e, and_true]
  omega

theorem adv_sound {s : MPS T} (f : Factor o LO RO) (h : Sound o LO RO s) (hl : s.l + 2 ≤ s.N) : Sound o LO RO (adv o s) := by
  have h0 := h.lo
  have h1 := h.gap
  have h2 := h.hi
  have hk : o.link (s.t (s.l + 1)) (s.t (s.l + 1 + 1)) := h.linked _ (by omega) (by omega)
  refine ⟨?_, ?_, ?_, ?_, ?_, ?_⟩
  · simp only [adv]; omega
  · simp only [adv]; omega
  · simp only [adv, set2]; omega
  · intro i hi hi'
    simp only [adv] at hi' ⊢
    by_cases e : i = s.l + 1
    · subst e; rw [set2_fst]; exact f.left _ _ hk
    · rw [set2_ne s _ e (by omega)]; exact h.left i hi (by omega)
  · intro i hi hi'
    simp only [adv, set2] at hi hi'
    simp only [adv]
    rw [set2_ne s _ (by omega) (by omega)]
    exact h.right i (by omega) hi'
  · intro i hi hi'
    refine linked_set2 h.linked (f.midL _ _ hk) (fun hb => f.prevL _ _ _ ?_ hk) (fun hb => f.nextL _ _ _ ?_ hk) i hi hi'
    · have := h.linked (s.l + 1 - 1) hb (by omega)
      rwa [show s.l + 1 - 1 + 1 = s.l + 1 by ring] at this
    · have := h.linked (s.l + 1 + 1) (by omega) (by omega)
      rwa [show s.l + 1 + 1 + 1 = s.l + 1 + 2 by ring] at this

theorem ret_sound {s : MPS T} (f : Factor o LO RO) (h : Sound o LO RO s) (hr : 3 ≤ s.r) : Sound o LO RO (ret o s) := by
  have h0 := h.lo
  have h1 := h.gap
  have h2 := h.hi
  have hk : o.link (s.t (s.r - 2)) (s.t (s.r - 2 + 1)) := h.linked _ (by omega) (by omega)
  refine ⟨?_, ?_, ?_, ?_, ?_, ?_⟩
  · simp only [ret]; omega
  · simp only [ret]; omega
  · simp only [ret, set2]; omega
  · intro i hi hi'
    simp only [ret] at hi' ⊢
    rw [set2_ne s _ (by omega) (by omega)]
    exact h.left i hi (by omega)
  · intro i hi hi'
    simp only [ret, set2] at hi hi'
    simp only [ret]
    by_cases e : i = s.r - 2 + 1
    · subst e; rw [set2_snd]; exact f.right _ _ hk
    · rw [set2_ne s _ (by omega) e]; exact h.right i (by omega) hi'
  · intro i hi hi'
    refine linked_set2 h.linked (f.midR _ _ hk) (fun hb => f.prevR _ _ _ ?_ hk) (fun hb => f.nextR _ _ _ ?_ hk) i hi hi'
    · have := h.linked (s.r - 2 - 1) hb (by omega)
      rwa [show s.r - 2 - 1 + 1 = s.r - 2 by ring] at this
    · have := h.linked (s.r - 2 + 1) (by omega) (by omega)
      rwa [show s.r - 2 + 1 + 1 = s.r - 2 + 2 by ring] at this

/-- What a run of `position` preserves. `Q` is any property that a round of either loop keeps. -/
theorem positionWith_spec {sL sR : MPS T → Res (MPS T)} {s : MPS T} {i : Int} (f : Factor o LO RO)
    (hL : ∀ s, Sound o LO RO s → s.l + 2 ≤ s.N → sL s = .ok (adv o s))
    (hR : ∀ s, Sound o LO RO s → 3 ≤ s.r → sR s = .ok (ret o s)) {Q : MPS T → Prop}
    (qL : ∀ s, Sound o LO RO s → s.l + 2 ≤ s.N → Q s → Q (adv o s)) (qR : ∀ s, Sound o LO RO s → 3 ≤ s.r → Q s → Q (ret o s))
    (h : Sound o LO RO s) (h1 : 1 ≤ i) (h2 : i ≤ s.N) (hq : Q s) :
    ∃ s', positionWith sL sR s i = .ok s' ∧ Sound o LO RO s' ∧ s'.N = s.N ∧ s'.l = i - 1 ∧ s'.r = i + 1 ∧ Q s' := by
  have A : ∀ (n : Nat) (s : MPS T), Sound o LO RO s → i ≤ s.N → Q s → n = (i - 1 - s.l).toNat →
      ∃ s', loopL sL i n s = .ok s' ∧ Sound o LO RO s' ∧ s'.N = s.N ∧ i - 1 ≤ s'.l ∧ Q s' := by
    intro n
    induction n with
    | zero => intro s h _ hq hn; exact ⟨s, rfl, h, rfl, by omega, hq⟩
    | succ n ih =>
      intro s h hi hq hn
      have hlt : s.l < i - 1 := by omega
      rw [loopL, if_pos hlt, hL s h (by omega)]
      simp only [Res.bind_ok]
      obtain ⟨s', e, h', hN, hl, hq'⟩ := ih (adv o s) (adv_sound f h (by omega)) (by simpa [adv, set2] using hi)
        (qL s h (by omega) hq) (by simp only [adv]; omega)
      exact ⟨s', e, h', by simpa [adv, set2] using hN, hl, hq'⟩
  have B : ∀ (n : Nat) (s : MPS T), Sound o LO RO s → Q s → n = (s.r - (i + 1)).toNat →
      ∃ s', loopR sR i n s = .ok s' ∧ Sound o LO RO s' ∧ s'.N = s.N ∧ s'.r ≤ i + 1 ∧ min s.l (i - 1) ≤ s'.l ∧ Q s' := by
    intro n
    induction n with
    | zero => intro s h hq hn; exact ⟨s, rfl, h, rfl, by omega, by omega, hq⟩
    | succ n ih =>
      intro s h hq hn
      have hlt : s.r > i + 1 := by omega
      rw [loopR, if_pos hlt, hR s h (by omega)]
      simp only [Res.bind_ok]
      obtain ⟨s', e, h', hN, hl, hr, hq'⟩ := ih (ret o s) (ret_sound f h (by omega))
        (qR s h (by omega) hq) (by simp only [ret]; omega)
      refine ⟨s', e, h', by simpa [ret, set2] using hN, hl, ?_, hq'⟩
      simp only [ret] at hr
      omega
  obtain ⟨s1, e1, h1', hN1, hl1, q1⟩ := A _ s h h2 hq rfl
  obtain ⟨s2, e2, h2', hN2, hr2, hl2, q2⟩ := B _ s1 h1' q1 rfl
  have := h2'.gap
  refine ⟨s2, ?_, h2', by omega, by omega, by omega, q2⟩
  unfold positionWith
  rw [e1]
  exact e2

/-- Which calls are considered, with what the user or the factorization has to provide. -/
inductive Call (T : Type*)
  | position (i : Int)
  | positionSVD (i : Int)
  | set (i : Int) (x : T)
  | scale (f : T → T)
  | svdBond (b : Int) (p : T × T) (d : Dir)
  | orthogonalize (x : Int → T)

/-- The call. -/
def Call.run (o : Ops T) (s : MPS T) : Call T → Res (MPS T)
  | .position i => Limits.position o s i
  | .positionSVD i => Limits.positionSVD o s i
  | .set i x => Limits.set s i x
  | .scale f => Limits.scale s f
  | .svdBond b p d => Limits.svdBond s b p d
  | .orthogonalize x => Limits.orthogonalize s x

/-- The call is one the code provides for: sites exist, new tensors have an index in common with their neighbours, factorizations
give an orthogonal tensor. -/
def Call.Ok (o : Ops T) (LO RO : T → Prop) (s : MPS T) : Call T → Prop
  | .position i => 1 ≤ i ∧ i ≤ s.N
  | .positionSVD i => 1 ≤ i ∧ i ≤ s.N
  | .set i x => 1 ≤ i ∧ i ≤ s.N ∧ (2 ≤ i → o.link (s.t (i - 1)) x) ∧ (i < s.N → o.link x (s.t (i + 1)))
  | .scale f => (∀ a b, o.link a b → o.link (f a) b) ∧ (∀ a b, o.link a b → o.link a (f b))
  | .svdBond b p d => 1 ≤ b ∧ b < s.N ∧ o.link p.1 p.2 ∧ (2 ≤ b → o.link (s.t (b - 1)) p.1) ∧
      (b + 2 ≤ s.N → o.link p.2 (s.t (b + 2))) ∧ (d = .left → LO p.1) ∧ (d = .right → RO p.2)
  | .orthogonalize x => (∀ i : Int, 1 ≤ i → i < s.N → o.link (x i) (x (i + 1))) ∧ (∀ i : Int, 2 ≤ i → i ≤ s.N → RO (x i))

theorem linked_set1 {s : MPS T} {i : Int} {x : T} (h : ∀ i : Int, 1 ≤ i → i < s.N → o.link (s.t i) (s.t (i + 1)))
    (hp : 2 ≤ i → o.link (s.t (i - 1)) x) (hn : i < s.N → o.link x (s.t (i + 1))) (j : Int) (h1 : 1 ≤ j) (h2 : j < s.N) :
    o.link (Function.update s.t i x j) (Function.update s.t i x (j + 1)) := by
  by_cases e1 : j = i
  · subst e1
    rw [Function.update_self, Function.update_of_ne (by omega)]
    exact hn h2
  · by_cases e2 : j = i - 1
    · subst e2
      rw [show i - 1 + 1 = i by ring, Function.update_self, Function.update_of_ne e1]
      exact hp (by omega)
    · rw [Function.update_of_ne e1, Function.update_of_ne (by omega)]
      exact h j h1 h2

theorem set_sound {s : MPS T} (h : Sound o LO RO s) {i : Int} {x : T} (h1 : 1 ≤ i) (h2 : i ≤ s.N)
    (hp : 2 ≤ i → o.link (s.t (i - 1)) x) (hn : i < s.N → o.link x (s.t (i + 1))) :
    ∃ s', set s i x = .ok s' ∧ Sound o LO RO s' ∧ s'.N = s.N := by
  have a := h.lo
  have b := h.gap
  have c := h.hi
  unfold set
  rw [ref_eq (by omega) (by omega)]
  simp only [Res.bind_ok]
  rw [if_neg (by omega)]
  refine ⟨_, rfl, ⟨?_, ?_, ?_, ?_, ?_, ?_⟩, rfl⟩
  · simp only; omega
  · simp only; omega
  · simp only; omega
  · intro j hj hj'
    simp only at hj' ⊢
    rw [Function.update_of_ne (by omega)]
    exact h.left j hj (by omega)
  · intro j hj hj'
    simp only at hj hj' ⊢
    rw [Function.update_of_ne (by omega)]
    exact h.right j (by omega) hj'
  · exact linked_set1 h.linked hp hn

theorem svdBond_sound {s : MPS T} (h : Sound o LO RO s) {b : Int} {p : T × T} {d : Dir} {s' : MPS T}
    (hok : (Call.svdBond b p d).Ok o LO RO s) (e : svdBond s b p d = .ok s') :
    Sound o LO RO s' ∧ s'.N = s.N ∧ (s'.t = (set2 s b p).t) ∧
      (d = .left → s'.l = b ∧ s'.r = max s.r (b + 2)) ∧ (d = .right → s'.l = min s.l (b - 1) ∧ s'.r = b + 1) := by
  obtain ⟨h1, h2, hm, hp, hn, hL, hR⟩ := hok
  have a := h.lo
  have g := h.gap
  have c := h.hi
  unfold svdBond at e
  cases d with
  | left =>
    simp only at e
    split at e
    · exact absurd e (by simp)
    · next h3 =>
      rw [if_neg (by simp), if_neg (by omega)] at e
      have e' : s' = { set2 s b p with l := b, r := max s.r (b + 2) } := by
        cases e
        simp only [set2, MPS.mk.injEq, true_and, and_true]
        omega
      subst e'
      refine ⟨⟨?_, ?_, ?_, ?_, ?_, linked_set2 h.linked hm (fun hb => hp (by omega)) hn⟩, rfl, rfl, fun _ => ⟨rfl, rfl⟩, by simp⟩
      · simp only; omega
      · simp only [set2]; omega
      · simp only [set2]; omega
      · intro j hj hj'
        simp only at hj' ⊢
        by_cases ej : j = b
        · subst ej; rw [set2_fst]; exact hL rfl
        · rw [set2_ne s p ej (by omega)]; exact h.left j hj (by simp only [true_and] at h3; omega)
      · intro j hj hj'
        simp only [set2] at hj hj'
        simp only
        rw [set2_ne s p (by omega) (by omega)]
        exact h.right j (by omega) hj'
  | right =>
    simp only at e
    rw [if_neg (by simp)] at e
    split at e
    · exact absurd e (by simp)
    · next h3 =>
      rw [if_neg (by omega)] at e
      have e' : s' = { set2 s b p with l := min s.l (b - 1), r := b + 1 } := by
        cases e
        simp only [set2, MPS.mk.injEq, true_and, and_true]
        omega
      subst e'
      refine ⟨⟨?_, ?_, ?_, ?_, ?_, linked_set2 h.linked hm (fun hb => hp (by omega)) hn⟩, rfl, rfl, by simp, fun _ => ⟨rfl, rfl⟩⟩
      · simp only [set2]; omega
      · simp only [set2]; omega
      · simp only [set2]; omega
      · intro j hj hj'
        simp only [set2] at hj'
        simp only
        rw [set2_ne s p (by omega) (by omega)]
        exact h.left j hj (by omega)
      · intro j hj hj'
        simp only [set2] at hj hj'
        simp only
        by_cases ej : j = b + 1
        · subst ej; rw [set2_snd]; exact hR rfl
        · rw [set2_ne s p (by omega) ej]
          simp only [true_and] at h3
          exact h.right j (by omega) hj'

/-- The states that sequences of calls lead to, from any tensors with nothing known about them. -/
inductive Reach (o : Ops T) (LO RO : T → Prop) : MPS T → Prop
  | init (N : Nat) (t : Int → T) : 1 ≤ N → (∀ i : Int, 1 ≤ i → i < N → o.link (t i) (t (i + 1))) →
      Reach o LO RO ⟨N, t, 0, N + 1⟩
  | call {s s' : MPS T} (c : Call T) : Reach o LO RO s → c.Ok o LO RO s → c.run o s = .ok s' → Reach o LO RO s'

theorem call_sound (f : Factor o LO RO) {s s' : MPS T} (h : Sound o LO RO s) {c : Call T} (hok : c.Ok o LO RO s)
    (e : c.run o s = .ok s') : Sound o LO RO s' := by
  cases c with
  | position i =>
    obtain ⟨s2, e2, h2, _⟩ := positionWith_spec (sL := stepL o) (sR := stepR o) (Q := fun _ => True) f (fun s h hl => stepL_eq h hl)
      (fun s h hl => stepR_eq h hl) (fun _ _ _ _ => trivial) (fun _ _ _ _ => trivial) h hok.1 hok.2 trivial
    simp only [Call.run, position] at e
    rw [e] at e2
    cases e2
    exact h2
  | positionSVD i =>
    obtain ⟨s2, e2, h2, _⟩ := positionWith_spec (sL := svdStepL o.orthL) (sR := svdStepR o.orthR) (Q := fun _ => True) f
      (fun s h hl => svdStepL_eq h hl) (fun s h hl => svdStepR_eq h hl) (fun _ _ _ _ => trivial) (fun _ _ _ _ => trivial) h
      hok.1 hok.2 trivial
    simp only [Call.run, positionSVD] at e
    rw [e] at e2
    cases e2
    exact h2
  | set i x =>
    obtain ⟨h1, h2, h3, h4⟩ := hok
    obtain ⟨s2, e2, h2, _⟩ := set_sound h h1 h2 h3 h4
    simp only [Call.run] at e
    rw [e] at e2
    cases e2
    exact h2
  | scale g =>
    have a := h.lo
    have b := h.gap
    have c := h.hi
    simp only [Call.run, scale] at e
    rw [ref_eq (by omega) (by omega)] at e
    simp only [Res.bind_ok] at e
    obtain ⟨s2, e2, h2, _⟩ := set_sound h (i := s.l + 1) (x := g (s.t (s.l + 1))) (by omega) (by omega) (fun hi => hok.2 _ _ (by
      have := h.linked (s.l + 1 - 1) (by omega) (by omega)
      rwa [show s.l + 1 - 1 + 1 = s.l + 1 by ring] at this)) (fun hi => hok.1 _ _ (h.linked _ (by omega) hi))
    unfold set at e2
    rw [ref_eq (by omega) (by omega)] at e2
    simp only [Res.bind_ok] at e2
    rw [if_neg (by omega), e] at e2
    cases e2
    exact h2
  | svdBond b p d => exact (svdBond_sound h hok e).1
  | orthogonalize x =>
    simp only [Call.run, orthogonalize] at e
    split at e
    · exact absurd e (by simp)
    · next hN =>
      cases e
      refine ⟨le_rfl, by simp, by simp only; omega, fun i h1 h2 => by simp only at h2; omega, fun i h1 h2 => ?_, fun i h1 h2 => ?_⟩
      · simp only at h1 h2 ⊢
        rw [if_pos ⟨by omega, h2⟩]
        exact hok.2 i h1 h2
      · simp only at h2 ⊢
        rw [if_pos ⟨by omega, by omega⟩, if_pos ⟨by omega, by omega⟩]
        exact hok.1 i h1 h2

/-- C40. After any sequence of calls, every site at or left of the left limit is left-orthogonal, every site at or right of the right
limit is right-orthogonal, and there is a site in between. -/
theorem C40_limits (f : Factor o LO RO) {s : MPS T} (h : Reach o LO RO s) : Sound o LO RO s := by
  induction h with
  | init N t h1 h2 => exact ⟨le_rfl, by simp only; omega, le_rfl, fun i h1 h2 => by simp only at h2; omega,
      fun i h1 h2 => by simp only at h1 h2; omega, h2⟩
  | call c _ hok e ih => exact call_sound f ih hok e

/-- C40. After `position(i)`, in either mode and after any sequence of calls, exactly the site `i` is the centre: it succeeds, the
sites left of `i` are left-orthogonal, those right of `i` right-orthogonal, and `orthoCenter` is `i`. -/
theorem C40_position (f : Factor o LO RO) {s : MPS T} (h : Reach o LO RO s) {i : Int} (h1 : 1 ≤ i) (h2 : i ≤ s.N) :
    ∀ c ∈ [Call.position i, Call.positionSVD i], ∃ s', c.run o s = .ok s' ∧ s'.N = s.N ∧
      (∀ j, 1 ≤ j → j < i → LO (s'.t j)) ∧ (∀ j : Int, i < j → j ≤ s.N → RO (s'.t j)) ∧ orthoCenter s' = .ok i := by
  have key : ∀ (c : Call T), c.Ok o LO RO s → (∃ s', c.run o s = .ok s' ∧ s'.N = s.N ∧ s'.l = i - 1 ∧ s'.r = i + 1) →
      ∃ s', c.run o s = .ok s' ∧ s'.N = s.N ∧
      (∀ j, 1 ≤ j → j < i → LO (s'.t j)) ∧ (∀ j : Int, i < j → j ≤ s.N → RO (s'.t j)) ∧ orthoCenter s' = .ok i := by
    rintro c hok ⟨s', e, hN, hl, hr⟩
    have hs := C40_limits f (h.call c hok e)
    refine ⟨s', e, hN, fun j h1 h2 => hs.left j h1 (by omega), fun j h1 h2 => hs.right j (by omega) (by omega), ?_⟩
    unfold orthoCenter isOrtho
    rw [if_pos (by simp only [decide_eq_true_eq]; omega), hl]
    congr 1
    ring
  have hs := C40_limits f h
  intro c hc
  simp only [List.mem_cons, List.not_mem_nil, or_false] at hc
  rcases hc with rfl | rfl
  · refine key _ ⟨h1, h2⟩ ?_
    obtain ⟨s2, e2, _, hN, hl, hr, _⟩ := positionWith_spec (sL := stepL o) (sR := stepR o) (Q := fun _ => True) f
      (fun s h hl => stepL_eq h hl) (fun s h hl => stepR_eq h hl) (fun _ _ _ _ => trivial) (fun _ _ _ _ => trivial) hs h1 h2 trivial
    exact ⟨s2, e2, hN, hl, hr⟩
  · refine key _ ⟨h1, h2⟩ ?_
    obtain ⟨s2, e2, _, hN, hl, hr, _⟩ := positionWith_spec (sL := svdStepL o.orthL) (sR := svdStepR o.orthR) (Q := fun _ => True) f
      (fun s h hl => svdStepL_eq h hl) (fun s h hl => svdStepR_eq h hl) (fun _ _ _ _ => trivial) (fun _ _ _ _ => trivial) hs
      h1 h2 trivial
    exact ⟨s2, e2, hN, hl, hr⟩

end Verif.Limits
