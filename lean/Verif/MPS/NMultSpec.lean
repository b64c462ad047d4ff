import Verif.MPS.NMultSum

/-! # What `nmultMPO` should return -/

noncomputable section

namespace Verif.NMult

open Finset Verif.Limits Matrix
open Verif.DmrgNum hiding Tools

variable {𝕜 : Type*} [RCLike 𝕜]

/-! ## Specification -/

/-- The elements of the product of two operators, for the pairs `κ` of an index of `A` and an index of `B`: the sum over the indices which they share. -/
def prodOp (dm dt : Int → ℕ) (A B : Int → Site 𝕜) (N : ℕ) (κ : Int → ℕ) : 𝕜 :=
  sumCfg dm N (fun x => wave A N (fun i => κ i / dt i * dm i + x i) * wave B N fun i => x i * dt i + κ i % dt i) fun _ => 0

/-- The tensors of the two operators at a site, multiplied. -/
def pe (dm dt : ℕ) (A B : Site 𝕜) (a b κ c e : ℕ) : 𝕜 := ∑ x ∈ range dm, A.A a (κ / dt * dm + x) c * B.A b (x * dt + κ % dt) e

/-- The product of the tensors at the sites `k+1..k+j`, where the last links have dimension 1. -/
def renv (dm dt : Int → ℕ) (A B : Int → Site 𝕜) : ℕ → ℕ → (Int → ℕ) → ℕ → ℕ → 𝕜
  | 0, _, _, _, _ => 1
  | j + 1, k, κ, a, b => ∑ c ∈ range (A (k + 1)).r, ∑ e ∈ range (B (k + 1)).r,
      pe (dm (k + 1)) (dt (k + 1)) (A (k + 1)) (B (k + 1)) a b (κ (k + 1)) c e * renv dm dt A B j (k + 1) κ c e

/-- The square of the norm of the tensor on the right of site `k` with the vector `x` in front. -/
def envSq (d dm dt : Int → ℕ) (A B : Int → Site 𝕜) (N k : ℕ) (x : ℕ → ℕ → 𝕜) : ℝ :=
  sumTail d k (N - k) (fun ρ => ‖∑ c ∈ range (A k).r, ∑ e ∈ range (B k).r, x c e * renv dm dt A B (N - k) k ρ c e‖ ^ 2) fun _ => 0

/-- How far the tensors on the right of the sites are from being orthogonal: at each site they multiply the square of the norm by a number that
varies by a factor of at most `q`. -/
def Cond (d dm dt : Int → ℕ) (A B : Int → Site 𝕜) (N : ℕ) (q : ℝ) : Prop := ∀ k : ℕ, 1 ≤ k → k + 2 ≤ N → ∃ lo : ℝ, 0 < lo ∧ ∀ x : ℕ → ℕ → 𝕜,
  let n := ∑ c ∈ range (A k).r, ∑ e ∈ range (B k).r, ‖x c e‖ ^ 2
  lo * n ≤ envSq d dm dt A B N k x ∧ envSq d dm dt A B N k x ≤ q * lo * n

/-! ## The product from the left and from the right -/

theorem clust_eq (dm dt : ℕ) (A B : Site 𝕜) (nf : ℕ → ℕ → ℕ → 𝕜) (m κ c e : ℕ) :
    clust dm dt A B nf m κ c e = ∑ a ∈ range A.l, ∑ b ∈ range B.l, nf m a b * pe dm dt A B a b κ c e := by
  unfold clust pe
  simp only [sum_mul, mul_sum]
  rw [sum_comm]
  refine (sum_congr rfl fun x _ => sum_comm).trans ?_
  rw [sum_comm]
  refine sum_congr rfl fun a _ => ?_
  rw [sum_comm]
  exact sum_congr rfl fun b _ => sum_congr rfl fun x _ => by ring

theorem renv_TL (dm dt : Int → ℕ) (A B : Int → Site 𝕜) : ∀ (j k : ℕ) (a b : ℕ), TL k fun κ => renv dm dt A B j k κ a b := by
  intro j
  induction j with
  | zero => intro k a b κ κ' _; rfl
  | succ j ih =>
    intro k a b κ κ' h
    simp only [renv]
    refine sum_congr rfl fun c _ => sum_congr rfl fun e _ => ?_
    rw [h _ (by omega)]
    congr 1
    exact ih (k + 1) c e κ κ' fun i hi => h i (by push_cast at hi; omega)

/-- The product of the first `k` tensors. -/
def lenv (dm dt : Int → ℕ) (A B : Int → Site 𝕜) (k : ℕ) (κ : Int → ℕ) (a b : ℕ) : 𝕜 :=
  sumCfg dm k (fun x => amp A k (fun i => κ i / dt i * dm i + x i) a * amp B k (fun i => x i * dt i + κ i % dt i) b) fun _ => 0

theorem lenv_succ (dm dt : Int → ℕ) (A B : Int → Site 𝕜) (k : ℕ) (κ : Int → ℕ) (c e : ℕ) : lenv dm dt A B (k + 1) κ c e =
    ∑ a ∈ range (A (k + 1)).l, ∑ b ∈ range (B (k + 1)).l, lenv dm dt A B k κ a b * pe (dm (k + 1)) (dt (k + 1)) (A (k + 1)) (B (k + 1)) a b (κ (k + 1)) c e := by
  rw [lenv, sumCfg]
  have h : ∀ s, sumCfg dm k (fun x => amp A (k + 1) (fun i => κ i / dt i * dm i + x i) c * amp B (k + 1) (fun i => x i * dt i + κ i % dt i) e) (Function.update (fun _ => 0) ((k : Int) + 1) s) =
      ∑ a ∈ range (A (k + 1)).l, ∑ b ∈ range (B (k + 1)).l,
        ((A (k + 1)).A a (κ (k + 1) / dt (k + 1) * dm (k + 1) + s) c * (B (k + 1)).A b (s * dt (k + 1) + κ (k + 1) % dt (k + 1)) e) * lenv dm dt A B k κ a b := by
    intro s
    have e1 : ∀ x : Int → ℕ, (∀ i : Int, (k : Int) < i → x i = Function.update (fun _ => 0) ((k : Int) + 1) s i) →
        amp A (k + 1) (fun i => κ i / dt i * dm i + x i) c * amp B (k + 1) (fun i => x i * dt i + κ i % dt i) e =
        ∑ a ∈ range (A (k + 1)).l, ∑ b ∈ range (B (k + 1)).l,
          ((A (k + 1)).A a (κ (k + 1) / dt (k + 1) * dm (k + 1) + s) c * (B (k + 1)).A b (s * dt (k + 1) + κ (k + 1) % dt (k + 1)) e) *
            (amp A k (fun i => κ i / dt i * dm i + x i) a * amp B k (fun i => x i * dt i + κ i % dt i) b) := by
      intro x hx
      have hx' : x ((k : Int) + 1) = s := by rw [hx _ (by omega), Function.update_self]
      rw [amp, amp, sum_mul_sum, hx']
      exact sum_congr rfl fun _ _ => sum_congr rfl fun _ _ => by ring
    rw [sumCfg_congr fun x _ h2 => e1 x h2, sumCfg_add]
    refine sum_congr rfl fun a _ => ?_
    rw [sumCfg_add]
    refine sum_congr rfl fun b _ => ?_
    rw [sumCfg_mul, lenv]
    congr 1
    refine ApplyMPO.sumCfg_frame fun σ σ' h1 _ => ?_
    rw [ApplyMPO.loc_amp A k _ (fun i => κ i / dt i * dm i + σ' i) fun i i1 i2 => by rw [(h1 i i1 i2).1],
      ApplyMPO.loc_amp B k _ (fun i => σ' i * dt i + κ i % dt i) fun i i1 i2 => by rw [(h1 i i1 i2).1]]
  rw [sum_congr rfl fun s _ => h s, sum_comm]
  refine sum_congr rfl fun a _ => ?_
  rw [sum_comm]
  refine sum_congr rfl fun b _ => ?_
  rw [pe, mul_sum]
  exact sum_congr rfl fun s _ => by ring

theorem sum4 {K : Type*} [AddCommMonoid K] {ι ι' : Type*} (S S' : Finset ι) (R R' : Finset ι') (f : ι → ι → ι' → ι' → K) :
    ∑ a ∈ S, ∑ b ∈ S', ∑ c ∈ R, ∑ e ∈ R', f a b c e = ∑ c ∈ R, ∑ e ∈ R', ∑ a ∈ S, ∑ b ∈ S', f a b c e := by
  calc _ = ∑ a ∈ S, ∑ c ∈ R, ∑ b ∈ S', ∑ e ∈ R', f a b c e := sum_congr rfl fun _ _ => sum_comm
    _ = ∑ c ∈ R, ∑ a ∈ S, ∑ b ∈ S', ∑ e ∈ R', f a b c e := sum_comm
    _ = ∑ c ∈ R, ∑ a ∈ S, ∑ e ∈ R', ∑ b ∈ S', f a b c e := sum_congr rfl fun _ _ => sum_congr rfl fun _ _ => sum_comm
    _ = _ := sum_congr rfl fun _ _ => sum_comm

/-- The two halves. -/
theorem prod_split {N : ℕ} {da db dm dt : Int → ℕ} {A B : Int → Site 𝕜} (hA : Chain N da A) (hB : Chain N db B) (κ : Int → ℕ) : ∀ j k : ℕ, k + j + 1 = N →
    ∑ a ∈ range (A (k + 1)).l, ∑ b ∈ range (B (k + 1)).l, lenv dm dt A B k κ a b * renv dm dt A B (j + 1) k κ a b = prodOp dm dt A B N κ := by
  have step : ∀ j k : ℕ, ∑ a ∈ range (A (k + 1)).l, ∑ b ∈ range (B (k + 1)).l, lenv dm dt A B k κ a b * renv dm dt A B (j + 1) k κ a b =
      ∑ c ∈ range (A (k + 1)).r, ∑ e ∈ range (B (k + 1)).r, lenv dm dt A B (k + 1) κ c e * renv dm dt A B j (k + 1) κ c e := by
    intro j k
    simp only [lenv_succ, renv, sum_mul, mul_sum]
    rw [sum4]
    exact sum_congr rfl fun _ _ => sum_congr rfl fun _ _ => sum_congr rfl fun _ _ => sum_congr rfl fun _ _ => by ring
  intro j
  induction j with
  | zero =>
    intro k hk
    rw [step]
    have e : (k : Int) + 1 = N := by omega
    rw [e, hA.last, hB.last]
    simp only [range_one, sum_singleton, renv, mul_one]
    have e2 : k + 1 = N := by omega
    rw [e2]
    rfl
  | succ j ih =>
    intro k hk
    rw [step, hA.link _ (by omega) (by omega), hB.link _ (by omega) (by omega)]
    have := ih (k + 1) (by omega)
    push_cast at this
    exact this

theorem prod_first {N : ℕ} (hN : 1 ≤ N) {da db dm dt : Int → ℕ} {A B : Int → Site 𝕜} (hA : Chain N da A) (hB : Chain N db B) (κ : Int → ℕ) :
    renv dm dt A B N 0 κ 0 0 = prodOp dm dt A B N κ := by
  have := prod_split (dm := dm) (dt := dt) hA hB κ (N - 1) 0 (by omega)
  have e : N - 1 + 1 = N := by omega
  rw [e] at this
  simp only [Nat.cast_zero, zero_add, hA.first, hB.first, range_one, sum_singleton, lenv, sumCfg, amp, one_mul] at this
  exact this

end Verif.NMult
