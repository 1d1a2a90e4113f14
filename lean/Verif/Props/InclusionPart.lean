import Verif.Props.Inclusion
import Verif.Props.ToolGirg
import Verif.Props.ToolHrg
/-
The parts of a run of the inclusion tools: the hyperbolic random graph, and one GIRG for the converted points.
-/
namespace Girgs
namespace Props
open Spec Tree Real Tools Inclusion
open XR (fin)

/-- weights of converted points are from 1 to less than `2^30` -/
theorem conv_bounds {radii angles : List ℝ} {T R : ℝ} (hin : HypInput radii angles T R) : ∀ y ∈ convWeights radii R, 1 ≤ y ∧ y < 2 ^ 30 := by
  have hR : R ≤ 165 / 4 := by rcases hin.disk with h | h <;> linarith [h.1, h.2]
  have he : exp (165 / 8) < 2 ^ 30 := by
    have h1 : exp 1 < 2.7182818286 := exp_one_lt_d9
    have h2 : exp (165 / 8) ^ 8 = exp 1 ^ 165 := by rw [← exp_nat_mul, ← exp_nat_mul]; norm_num
    refine lt_of_pow_lt_pow_left₀ 8 (by norm_num) ?_
    rw [h2]
    calc exp 1 ^ 165 < 2.7182818286 ^ 165 := by gcongr
      _ < (2 ^ 30) ^ 8 := by norm_num
  intro y hy
  obtain ⟨r, hr, rfl⟩ := List.mem_map.1 hy
  have := hin.radius r hr
  refine ⟨one_le_exp (by linarith), lt_of_le_of_lt (exp_le_exp.2 ?_) he⟩
  linarith

theorem conv_length (radii : List ℝ) (R : ℝ) : (convWeights radii R).length = radii.length := by simp [convWeights]

theorem conv_normal {radii angles : List ℝ} {T R : ℝ} (hin : HypInput radii angles T R) : NormalWeights (convWeights radii R) := by
  intro y hy
  obtain ⟨h1, h2⟩ := conv_bounds hin y hy
  have h3 : (1 : ℝ) ≤ 2 ^ 1022 := one_le_pow₀ (by norm_num)
  have h4 : (1 : ℝ) ≤ 2 ^ 971 := one_le_pow₀ (by norm_num)
  generalize (2 : ℝ) ^ 1022 = A at h3 ⊢
  generalize (2 : ℝ) ^ 971 = B at h4 ⊢
  refine ⟨?_, ?_⟩
  · rw [div_le_iff₀ (by linarith)]; nlinarith
  · nlinarith

theorem conv_sum_le {radii angles : List ℝ} {T R : ℝ} (hin : HypInput radii angles T R) : (convWeights radii R).sum ≤ 2 ^ 62 := by
  have := List.sum_le_card_nsmul (convWeights radii R) (2 ^ 30 : ℝ) fun y hy => (conv_bounds hin y hy).2.le
  rw [conv_length, nsmul_eq_mul] at this
  have hn : (radii.length : ℝ) ≤ 2 ^ 31 := by exact_mod_cast (by have := hin.small; omega : radii.length ≤ 2 ^ 31)
  nlinarith

/-- One GIRG of an inclusion tool, for a desired degree `d`: the desired degree is possible, the scaling `k` gives weights with this expected degree, and
the edges are the threshold graph. -/
theorem conv_part {m : Machine XR} (hu : UnitRng m.rng) {threads : ℕ} {radii angles : List ℝ} {T R : ℝ} (hin : HypInput radii angles T R) (h2 : 2 ≤ radii.length) {d : ℝ}
    {s : XR} {edges : List (ℕ × ℕ)} (h : GirgPart m threads (girgWeights (xw radii) (fin R)) (girgPositions (xw angles)) (fin d) s edges) :
    ∃ k : ℝ, 0 < k ∧ s = fin k ∧ 0 < d ∧ d ≤ radii.length - 1 ∧
      d - 2 / 100 ≤ thresholdGirgDegree 1 ((convWeights radii R).map (· * k)) ∧
      thresholdGirgDegree 1 ((convWeights radii R).map (· * k)) < d + 2 / 100 + 1 / radii.length ∧
      (d - 2 / 100) * radii.length ≤ 2 * (convWeights radii R).sum * k ∧
      (2 * (convWeights radii R).sum ^ 2 < 2 ^ 29 * (d - 2 / 100) * radii.length → IsGraphOf radii.length (ConvRule radii angles R k) edges) := by
  obtain ⟨part, hperm, ws, hs, dev, gens, _, notice, hE⟩ := h
  have hwl : (girgWeights (xw radii) (fin R)).length = (convWeights radii R).length := by rw [girgWeights_eq]; simp [xw]
  have hpart : part.flatten.Perm (List.range (convWeights radii R).length) := by
    have := hperm.flatten
    rw [m.chunks_flatten _ _ (m.env threads).threads_pos, hwl] at this
    exact this
  have hN := conv_normal hin
  have hlen := conv_length radii R
  have hne : convWeights radii R ≠ [] := by intro h; rw [h] at hlen; simp at hlen; omega
  have hsm := hin.small
  have hs' := hs
  rw [girgWeights_eq] at hs'
  have hs0 : Scaling.ScaleWeights m.alg m.ndebug part ((convWeights radii R).map fin) (fin d) 1 .pinf (.returned s ws) := hs'
  have hs1 : Scaling.ScaleWeights m.alg true part ((convWeights radii R).map fin) (fin d) 1 .pinf (.returned s ws) := by
    unfold Scaling.ScaleWeights at hs0 ⊢
    rw [estimatorFor_pinf] at hs0 ⊢
    obtain ⟨s', ⟨c, hc, he⟩, hr⟩ := hs0
    exact ⟨s', ⟨c, Scaling.returns_release hc, he⟩, hr⟩
  obtain ⟨hd0, hdn⟩ := (C59_returns_iff hN (by omega) (by omega) hpart m.alg le_rfl (by norm_num) (Or.inl rfl) d).1.1 ⟨s, ws, hs1⟩
  obtain ⟨k, hk, rfl, hws, q1, _, _⟩ := C59_degree hN hne (by omega) hpart le_rfl (by norm_num) hs0
  obtain ⟨f1, _⟩ := C59_factor hN (by omega) (by omega) hpart le_rfl (by norm_num) hdn one_pos (fun y hy => (conv_bounds hin y hy).1) hs0
  obtain ⟨f1, f2⟩ := f1 rfl
  obtain ⟨q1, q2⟩ := q1 rfl
  rw [hlen] at hdn q2 f2
  refine ⟨k, hk, rfl, hd0, hdn, q1, q2, by simpa using f2, fun hsize => ?_⟩
  have hW : (convWeights radii R).sum < 2 ^ 29 * k := by
    have hWp : 0 < (convWeights radii R).sum := List.sum_pos _ (fun y hy => by linarith [(conv_bounds hin y hy).1]) hne
    rw [pow_one] at f2
    have : 2 * (convWeights radii R).sum * (convWeights radii R).sum < 2 * (convWeights radii R).sum * (2 ^ 29 * k) := by nlinarith
    exact lt_of_mul_lt_mul_left this (by positivity)
  have hk2 : k ≤ 2 ^ 900 := by
    refine f1.trans (max_le ?_ ?_)
    · rw [pow_one]; exact le_self_pow₀ (by norm_num) (by norm_num)
    · have := conv_sum_le hin
      have h9 : (2 : ℝ) ^ 62 ≤ 2 ^ 900 := pow_le_pow_right₀ (by norm_num) (by norm_num)
      simpa using this.trans h9
  refine conv_graph hin hk hk2 hW (m.env threads) m.rng hu.geo gens (notice := notice) ?_
  have e : ws = (girgWeights (xw radii) (fin R)).map (· *. fin k) := by
    rw [hws, girgWeights_eq]; simp [xw, List.map_map, Function.comp_def]
  rw [← e]
  exact hE

/-- One GIRG of an inclusion tool exists (release build). -/
theorem conv_part_exists {m : Machine XR} (hm : m.ndebug = true) (hu : UnitRng m.rng) {threads : ℕ} {radii angles : List ℝ} {T R : ℝ} (hin : HypInput radii angles T R)
    (h2 : 2 ≤ radii.length) {d : ℝ} (hd0 : 0 < d) (hdn : d ≤ radii.length - 1)
    (hsize : 2 * (convWeights radii R).sum ^ 2 < 2 ^ 29 * (d - 2 / 100) * radii.length) :
    ∃ s edges, GirgPart m threads (girgWeights (xw radii) (fin R)) (girgPositions (xw angles)) (fin d) s edges := by
  have hwl : (girgWeights (xw radii) (fin R)).length = (convWeights radii R).length := by rw [girgWeights_eq]; simp [xw]
  set part := m.chunks (m.env threads).threads (girgWeights (xw radii) (fin R)).length with hpd
  have hpart : part.flatten.Perm (List.range (convWeights radii R).length) := by
    rw [hpd, m.chunks_flatten _ _ (m.env threads).threads_pos, hwl]
  have hN := conv_normal hin
  have hlen := conv_length radii R
  have hne : convWeights radii R ≠ [] := by intro h; rw [h] at hlen; simp at hlen; omega
  have hsm := hin.small
  obtain ⟨s, ws, hs1⟩ := (C59_returns_iff hN (by omega) (by omega) hpart m.alg le_rfl (by norm_num) (Or.inl rfl) d).1.2 ⟨hd0, by rw [hlen]; exact hdn⟩
  have hs0 : Scaling.ScaleWeights m.alg m.ndebug part ((convWeights radii R).map fin) (fin d) 1 .pinf (.returned s ws) := by rw [hm]; exact hs1
  obtain ⟨k, hk, rfl, hws, q1, _, _⟩ := C59_degree hN hne (by omega) hpart le_rfl (by norm_num) hs0
  obtain ⟨f1, _⟩ := C59_factor hN (by omega) (by omega) hpart le_rfl (by norm_num) (by rw [hlen]; exact hdn) one_pos
    (fun y hy => (conv_bounds hin y hy).1) hs0
  obtain ⟨f1, f2⟩ := f1 rfl
  have hW : (convWeights radii R).sum < 2 ^ 29 * k := by
    have hWp : 0 < (convWeights radii R).sum := List.sum_pos _ (fun y hy => by linarith [(conv_bounds hin y hy).1]) hne
    rw [pow_one, hlen] at f2
    have : 2 * (convWeights radii R).sum * (convWeights radii R).sum < 2 * (convWeights radii R).sum * (2 ^ 29 * k) := by nlinarith
    exact lt_of_mul_lt_mul_left this (by positivity)
  have hk2 : k ≤ 2 ^ 900 := by
    refine f1.trans (max_le ?_ ?_)
    · rw [pow_one]; exact le_self_pow₀ (by norm_num) (by norm_num)
    · have := conv_sum_le hin
      have h9 : (2 : ℝ) ^ 62 ≤ 2 ^ 900 := pow_le_pow_right₀ (by norm_num) (by norm_num)
      simpa using this.trans h9
  obtain ⟨gens, hg⟩ := seedGens_ok (threads := (m.env threads).threads) (seed := 0) (Or.inr (by have := (m.env threads).threads_le; omega))
    m.edgeSeed (fun _ => m.edgeSeed 0)
  obtain ⟨⟨edges, notice, hE⟩, _⟩ := C17_simple_graph (conv_supported hin hk hk2 hW) XR.pinf (m.env threads) m.rng hu.geo gens
  refine ⟨fin k, edges, part, List.Perm.refl _, ws, ?_, _, gens, hg, notice, ?_⟩
  · rw [girgWeights_eq]; exact hs0
  · rw [girgPositions_eq, hws]; exact hE

end Props
end Girgs
