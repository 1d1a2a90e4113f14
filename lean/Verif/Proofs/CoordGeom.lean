import Verif.Proofs.MortonNat
import Verif.Base.XR
import Verif.Model.Node
/- Geometry of cells: touching, dist, bounds, cellForPoint. -/
namespace Girgs
open Spec Bits Coord

/-- integer grid distance on a ring of `2^l` cells -/
def ringDist (l : Nat) (a b : Nat) : Int := min |(a : Int) - b| (2 ^ l - |(a : Int) - b|)

theorem ringDist_nonneg {l a b : Nat} (ha : a < 2 ^ l) (hb : b < 2 ^ l) : 0 ≤ ringDist l a b := by
  unfold ringDist
  have ha' : (a : Int) < 2 ^ l := by exact_mod_cast ha
  have hb' : (b : Int) < 2 ^ l := by exact_mod_cast hb
  have : |(a : Int) - b| ≤ 2 ^ l := abs_le.2 ⟨by omega, by omega⟩
  have := abs_nonneg ((a : Int) - b)
  exact le_min this (by omega)

namespace Coord

theorem int32_eq {x : Int} (h : -2147483648 ≤ x) (h' : x < 2147483648) : int32 x = some x := by
  unfold int32; rw [if_pos ⟨h, h'⟩]

theorem shl1_eq {l : Nat} (h : l ≤ 30) : shl1 l = some (2 ^ l : Int) := by
  unfold shl1; rw [if_pos (by omega)]

theorem imin_eq (a b : Int) : imin a b = min a b := by
  unfold imin; split <;> omega

theorem imax_eq (a b : Int) : imax a b = max a b := by
  unfold imax; split <;> omega

theorem int32_sub {a b p : Int} (h2 : p ≤ 1073741824) (h3 : a < p) (h4 : 0 ≤ a) (h5 : b < p) (h6 : 0 ≤ b) :
    int32 (a - b) = some (a - b) ∧ |a - b| < p :=
  ⟨int32_eq (by omega) (by omega), abs_lt.2 ⟨by omega, by omega⟩⟩

theorem int32_abs {s p : Int} (h2 : p ≤ 1073741824) (h3 : |s| < p) :
    int32 (p - |s|) = some (p - |s|) ∧ int32 (s.natAbs : Int) = some |s| := by
  have := abs_nonneg s
  exact ⟨int32_eq (by omega) (by omega), by rw [Int.natCast_natAbs]; exact int32_eq (by omega) (by omega)⟩

theorem toInt_of_lt {a : BitVec 32} {l : Nat} (hl : l ≤ 30) (ha : a.toNat < 2 ^ l) : a.toInt = a.toNat := by
  have hp : (2 : Nat) ^ l ≤ 1073741824 := le_trans (two_pow_le hl) (by norm_num)
  exact BitVec.toInt_eq_toNat_of_lt (by omega)

theorem axisDist_eq {a b : BitVec 32} {l : Nat} (hl : l ≤ 30) (ha : a.toNat < 2 ^ l) (hb : b.toNat < 2 ^ l) :
    axisDist a b l = some (ringDist l a.toNat b.toNat) := by
  have hpz : (2 : Int) ^ l ≤ 1073741824 := by
    have hp : (2 : Nat) ^ l ≤ 1073741824 := le_trans (two_pow_le hl) (by norm_num)
    exact_mod_cast hp
  obtain ⟨e1, hs⟩ := int32_sub hpz (a := a.toNat) (b := b.toNat) (by exact_mod_cast ha) (Int.natCast_nonneg _)
    (by exact_mod_cast hb) (Int.natCast_nonneg _)
  obtain ⟨e3, e2⟩ := int32_abs hpz hs
  unfold axisDist ringDist
  rw [toInt_of_lt hl ha, toInt_of_lt hl hb]
  refine (obind e1 _).trans ((obind e2 _).trans ((obind (shl1_eq hl) _).trans ((obind e3 _).trans ?_)))
  rw [imin_eq]

theorem onLevel_lt32 {D l A : Nat} (h1 : 1 ≤ D) (hl : D * l ≤ 31) (h : OnLevel D l A) : A < 2 ^ 32 := by
  have := h.2
  have := levelStart_succ_lt D l h1
  have : 2 ^ (D * l) ≤ 2 ^ 31 := two_pow_le hl
  omega

section
variable {D : Nat} (h1 : 1 ≤ D) (h5 : D ≤ 5)
include h1 h5

theorem coordsOf_eq {l A : Nat} (hl : D * l ≤ 31) (hA : OnLevel D l A) :
    ∃ c : Coords D, coordsOf D A = some c ∧ ∀ d, (c d).toNat = gridCoord D l A d := by
  refine ⟨extract D (BitVec.ofNat 32 (A - levelStart D l)), ?_, ?_⟩
  · show coordsOf D A = _
    unfold coordsOf
    rw [cellOfLevel_eq h1 (by omega) (onLevel_lt32 h1 hl hA) hA]
    rfl
  · intro d
    rw [gridCoord_eq (l := l) h1 h5 (by omega) hA.local_lt]; rfl

theorem foldlM_some {α β : Type} (L : List α) (f : β → α → Option β) (g : β → α → β)
    (h : ∀ b a, a ∈ L → f b a = some (g b a)) : ∀ b, L.foldlM f b = some (L.foldl g b) := by
  clear h1 h5
  induction L with
  | nil => intro b; rfl
  | cons a L ih =>
    intro b
    rw [List.foldlM_cons, h b a (by simp), List.foldl_cons]
    exact ih (fun b a ha => h b a (by simp [ha])) _

theorem foldl_and {α : Type} (L : List α) (p : α → Bool) : ∀ b, L.foldl (fun t a => t && p a) b = (b && L.all p) := by
  clear h1 h5
  induction L with
  | nil => simp
  | cons a L ih => intro b; rw [List.foldl_cons, ih, List.all_cons, Bool.and_assoc]

theorem touching_eq {l A B : Nat} (hl : D * (l + 1) ≤ 31) (hA : OnLevel D l A) (hB : OnLevel D l B) :
    touching D A B l = some (decide (∀ d : Fin D, ringDist l (gridCoord D l A d) (gridCoord D l B d) ≤ 1)) := by
  have hl' : D * l ≤ 31 := le_trans (Nat.mul_le_mul_left _ (by omega)) hl
  have hl30 : l ≤ 30 := by
    have := Nat.le_mul_of_pos_left (l + 1) h1
    omega
  obtain ⟨a, ha, ha'⟩ := coordsOf_eq h1 h5 hl' hA
  obtain ⟨b, hb, hb'⟩ := coordsOf_eq h1 h5 hl' hB
  unfold touching
  simp only [ha, hb, Option.bind_eq_bind, Option.bind_some]
  rw [foldlM_some h1 h5 (List.finRange D) _
    (fun t d => t && decide (ringDist l (gridCoord D l A d) (gridCoord D l B d) ≤ 1))]
  · rw [foldl_and h1 h5]
    congr 1
    rw [Bool.true_and, Bool.eq_iff_iff]
    simp
  · intro t d _
    rw [axisDist_eq hl30 (by rw [ha']; exact gridCoord_lt _) (by rw [hb']; exact gridCoord_lt _), ha', hb']
    rfl

theorem foldl_max_eq {α : Type} (L : List α) (f : α → Int) (b : Int) :
    L.foldl (fun r a => max r (f a)) b = max b ((L.map f).foldl max b) := by
  clear h1 h5
  induction L generalizing b with
  | nil => simp
  | cons a L ih =>
    rw [List.foldl_cons, ih, List.map_cons, List.foldl_cons]
    have : b ≤ (L.map f).foldl max (max b (f a)) := by
      have : ∀ (M : List Int) (x : Int), x ≤ M.foldl max x := by
        intro M; induction M with
        | nil => intro x; exact le_rfl
        | cons y M ih => intro x; exact le_trans (le_max_left x y) (ih _)
      exact le_trans (le_max_left _ _) (this _ _)
    have h2 : max b (f a) ≤ (L.map f).foldl max (max b (f a)) := by
      have : ∀ (M : List Int) (x : Int), x ≤ M.foldl max x := by
        intro M; induction M with
        | nil => intro x; exact le_rfl
        | cons y M ih => intro x; exact le_trans (le_max_left x y) (ih _)
      exact this _ _
    rw [max_eq_right this, max_eq_right h2]

/-- the integer part of `dist`: the maximal ring distance -/
theorem distInt_eq {l A B : Nat} (hl : D * (l + 1) ≤ 31) (hA : OnLevel D l A) (hB : OnLevel D l B) :
    distInt D A B l = some ((List.finRange D).foldl
      (fun r (d : Fin D) => max r (ringDist l (gridCoord D l A d) (gridCoord D l B d))) 0) := by
  have hl' : D * l ≤ 31 := le_trans (Nat.mul_le_mul_left _ (by omega)) hl
  have hl30 : l ≤ 30 := by
    have := Nat.le_mul_of_pos_left (l + 1) h1
    omega
  obtain ⟨a, ha, ha'⟩ := coordsOf_eq h1 h5 hl' hA
  obtain ⟨b, hb, hb'⟩ := coordsOf_eq h1 h5 hl' hB
  unfold distInt
  rw [ha, hb]
  simp only [Option.bind_eq_bind, Option.bind_some]
  rw [foldlM_some h1 h5 (List.finRange D) _
    (fun r d => max r (ringDist l (gridCoord D l A d) (gridCoord D l B d)))]
  intro t d _
  rw [axisDist_eq hl30 (by rw [ha']; exact gridCoord_lt _) (by rw [hb']; exact gridCoord_lt _), ha', hb']
  simp [imax_eq]

end

theorem foldl_max_spec {α : Type} (L : List α) (f : α → Int) : ∀ b : Int,
    let m := L.foldl (fun r a => max r (f a)) b
    b ≤ m ∧ (∀ a ∈ L, f a ≤ m) ∧ (m = b ∨ ∃ a ∈ L, m = f a) := by
  induction L with
  | nil => intro b; simp
  | cons a L ih =>
    intro b
    obtain ⟨h1, h2, h3⟩ := ih (max b (f a))
    simp only [List.foldl_cons]
    refine ⟨le_trans (le_max_left _ _) h1, ?_, ?_⟩
    · intro x hx
      rcases List.mem_cons.1 hx with rfl | hx
      · exact le_trans (le_max_right _ _) h1
      · exact h2 x hx
    · rcases h3 with h3 | ⟨x, hx, h3⟩
      · rcases le_total b (f a) with h | h
        · right; exact ⟨a, by simp, by rw [h3, max_eq_right h]⟩
        · left; rw [h3, max_eq_left h]
      · right; exact ⟨x, by simp [hx], h3⟩

end Coord
end Girgs
