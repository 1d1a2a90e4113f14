import Verif.Proofs.Morton
/- Tables for deposit / extract, D = 1..5. -/
namespace Girgs.Bits
open Spec

theorem lin_extract (D : Nat) (d : Fin D) : Lin (fun x => extract D x d) := by
  unfold extract
  by_cases h1 : D = 1
  · simp only [h1, if_true]; exact Lin.id
  · simp only [h1, if_false]
    by_cases h2 : D % 2 = 1
    · simp only [h2, if_true]
      exact Lin.comp' (Lin.shift _ _ _ _ _) (Lin.shr _)
    · simp only [h2, if_false]
      have hs : Lin (fun x : BitVec 32 => extractor64 D ((x >>> (d.val / 2 * 2)).zeroExtend 64 |||
          ((x >>> (d.val / 2 * 2 + 1)).zeroExtend 64 <<< 32))) :=
        Lin.comp' (Lin.shift _ _ _ _ _) (Lin.orF (Lin.comp' (Lin.setWidth _) (Lin.shr _))
          (Lin.comp' (Lin.shl _) (Lin.comp' (Lin.setWidth _) (Lin.shr _))))
      by_cases h3 : d.val % 2 = 0
      · simp only [h3, if_true]
        exact Lin.comp' (Lin.setWidth _) (Lin.comp' (Lin.mask _) hs)
      · simp only [h3, if_false]
        exact Lin.comp' (Lin.setWidth _) (Lin.comp' (Lin.shr _) hs)

theorem lin_extractBMI2 (D : Nat) (d : Fin D) : Lin (fun x => extractBMI2 D x d) := Lin.pextGo _ _ _ _

/-- An OR-linear extraction is deinterleaving as soon as it is so on single bits. -/
theorem deinterleaved_of_table {D : Nat} (E : BitVec 32 → Coords D) (hl : ∀ d, Lin (fun x => E x d))
    (ht : ∀ (d : Fin D) (b k : Fin 32), (E (BitVec.twoPow 32 b) d).getLsbD k = decide (b.val = D * k + d)) (hD : 0 < D)
    (x : BitVec 32) : IsDeinterleaved D x (E x) := by
  intro d k
  by_cases hk : k < 32
  · rw [Bool.eq_iff_iff, (hl d).bit]
    simp only [Bool.and_eq_true, decide_eq_true_eq]
    constructor
    · rintro ⟨b, h1, h2⟩
      rw [ht d b ⟨k, hk⟩] at h2
      simp only [decide_eq_true_eq] at h2
      exact ⟨by omega, by rw [← h2]; exact h1⟩
    · rintro ⟨h1, h2⟩
      exact ⟨⟨_, h1⟩, h2, by rw [ht d _ ⟨k, hk⟩]; simp⟩
  · have h32 : 32 ≤ D * k + d := by
      have : k ≤ D * k := Nat.le_mul_of_pos_left _ hD
      omega
    rw [BitVec.getLsbD_of_ge _ _ (by omega)]
    have : ¬ (D * k + d.val < 32) := by omega
    simp [this]

theorem extract_correct (D : Nat) (h1 : 1 ≤ D) (h5 : D ≤ 5) (x : BitVec 32) : IsDeinterleaved D x (extract D x) := by
  refine deinterleaved_of_table (extract D) (lin_extract D) ?_ h1 x
  interval_cases D <;> decide +kernel

theorem extractBMI2_correct (D : Nat) (h1 : 1 ≤ D) (h5 : D ≤ 5) (x : BitVec 32) :
    IsDeinterleaved D x (extractBMI2 D x) := by
  refine deinterleaved_of_table (extractBMI2 D) (lin_extractBMI2 D) ?_ h1 x
  interval_cases D <;> decide +kernel

/-! ### deposit -/

theorem orlin_foldl {D m : Nat} {ι : Type} (L : List ι) (G : ι → Coords D → BitVec m) (hG : ∀ i, OrLin (G i)) :
    ∀ (F : Coords D → BitVec m), OrLin F → OrLin (fun c => L.foldl (fun r i => r ||| G i c) (F c)) := by
  induction L with
  | nil => intro F hF; exact hF
  | cons a L ih => intro F hF; exact ih (fun c => F c ||| G a c) (hF.orF (hG a))

theorem orlin_depositBMI2 (D : Nat) : OrLin (depositBMI2 D) := by
  refine orlin_foldl (List.finRange D) (fun i c => pdep (c i) (BitVec.ofNat 32 (kEveryDthBit D) <<< i.val)) ?_
    (fun _ => 0#32) ⟨rfl, fun _ _ => by simp⟩
  intro i
  exact Lin.comp (Lin.pdepGo _ _ _ _) (OrLin.proj i)

theorem orlin_deposit2 : OrLin (fun c : Coords 2 => deposit2 (c 0) (c 1)) := by
  have step : ∀ (k : Nat) (p : BitVec 64), Lin (fun z : BitVec 64 => (z ||| (z <<< k)) &&& p) := fun k p =>
    Lin.comp' (Lin.mask p) (Lin.orF Lin.id (Lin.shl k))
  have h : Lin (fun z : BitVec 64 => z ||| (z >>> 31)) := Lin.orF Lin.id (Lin.shr 31)
  have z0 : OrLin (fun c : Coords 2 => (c 0).zeroExtend 64 ||| ((c 1).zeroExtend 64 <<< 32)) :=
    OrLin.orF (Lin.comp (Lin.setWidth _) (OrLin.proj 0))
      (Lin.comp (Lin.shl _) (Lin.comp (Lin.setWidth _) (OrLin.proj 1)))
  exact Lin.comp (Lin.setWidth 32) (Lin.comp h (Lin.comp (step 1 _) (Lin.comp (step 2 _) (Lin.comp (step 4 _)
    (Lin.comp (step 8 _) z0)))))

theorem lin_spread3 : Lin spread3 := by
  have step : ∀ (k : Nat) (p : BitVec 32), Lin (fun z : BitVec 32 => (z ||| (z <<< k)) &&& p) := fun k p =>
    Lin.comp' (Lin.mask p) (Lin.orF Lin.id (Lin.shl k))
  exact Lin.comp' (step 2 _) (Lin.comp' (step 4 _) (Lin.comp' (step 8 _) (step 16 _)))

theorem orlin_deposit3 : OrLin (fun c : Coords 3 => deposit3 (c 0) (c 1) (c 2)) :=
  OrLin.orF (OrLin.orF (Lin.comp lin_spread3 (OrLin.proj 0))
    (Lin.comp (Lin.shl 1) (Lin.comp lin_spread3 (OrLin.proj 1))))
    (Lin.comp (Lin.shl 2) (Lin.comp lin_spread3 (OrLin.proj 2)))

theorem lin_spread4 : Lin spread4 := by
  have step : ∀ (k : Nat) (p : BitVec 64), Lin (fun z : BitVec 64 => (z ||| (z <<< k)) &&& p) := fun k p =>
    Lin.comp' (Lin.mask p) (Lin.orF Lin.id (Lin.shl k))
  have h : Lin (fun z : BitVec 64 => z ||| (z >>> 31)) := Lin.orF Lin.id (Lin.shr 31)
  exact Lin.comp' h (Lin.comp' (step 3 _) (Lin.comp' (step 6 _) (step 12 _)))

theorem orlin_deposit4 : OrLin (fun c : Coords 4 => deposit4 (c 0) (c 1) (c 2) (c 3)) := by
  have z (i j : Fin 4) : OrLin (fun c : Coords 4 => (c i).zeroExtend 64 ||| ((c j).zeroExtend 64 <<< 32)) :=
    OrLin.orF (Lin.comp (Lin.setWidth _) (OrLin.proj i))
      (Lin.comp (Lin.shl _) (Lin.comp (Lin.setWidth _) (OrLin.proj j)))
  exact Lin.comp (Lin.setWidth 32) (OrLin.orF (Lin.comp lin_spread4 (z 0 1))
    (Lin.comp (Lin.shl 2) (Lin.comp lin_spread4 (z 2 3))))

theorem depositInner_state {D : Nat} (L : List (Fin D)) (c : Coords D) (l : Nat) : ∀ (s : BitVec 32 × Nat),
    (L.foldl (fun s d => (s.1 ||| (((c d >>> l) &&& 1#32) <<< s.2), s.2 + 1)) s).2 = s.2 + L.length := by
  induction L with
  | nil => intro s; rfl
  | cons a L ih => intro s; rw [List.foldl_cons, ih]; simp; omega

theorem orlin_inner {D : Nat} (L : List (Fin D)) (l : Nat) : ∀ (F : Coords D → BitVec 32) (_ : OrLin F) (b : Nat),
    OrLin (fun c => (L.foldl (fun s d => (s.1 ||| (((c d >>> l) &&& 1#32) <<< s.2), s.2 + 1)) (F c, b)).1) := by
  induction L with
  | nil => intro F hF b; exact hF
  | cons a L ih =>
    intro F hF b
    exact ih (fun c => F c ||| (((c a >>> l) &&& 1#32) <<< b))
      (hF.orF (Lin.comp (Lin.shl b) (Lin.comp (Lin.mask _) (Lin.comp (Lin.shr l) (OrLin.proj a))))) (b + 1)

theorem orlin_outer {D : Nat} (L : List Nat) : ∀ (F : Coords D → BitVec 32) (_ : OrLin F) (b : Nat),
    OrLin (fun c => (L.foldl (fun s l => depositInner c l s) (F c, b)).1) := by
  induction L with
  | nil => intro F hF b; exact hF
  | cons a L ih =>
    intro F hF b
    have h := ih (fun c => (depositInner c a (F c, b)).1) (orlin_inner (List.finRange D) a F hF b) (b + D)
    have e : ∀ c : Coords D, depositInner c a (F c, b) = ((depositInner c a (F c, b)).1, b + D) := by
      intro c
      apply Prod.ext
      · rfl
      · have := depositInner_state (List.finRange D) c a (F c, b)
        simpa [depositInner] using this
    simp only [List.foldl_cons]
    simp only [← e] at h
    exact h

theorem orlin_depositLoop (D : Nat) : OrLin (fun c : Coords D => depositLoop c) :=
  orlin_outer _ (fun _ => 0#32) ⟨rfl, fun _ _ => by simp⟩ 0

theorem orlin_deposit (D : Nat) : OrLin (deposit D) := by
  match D with
  | 0 => exact orlin_depositLoop 0
  | 1 => exact OrLin.proj 0
  | 2 => exact orlin_deposit2
  | 3 => exact orlin_deposit3
  | 4 => exact orlin_deposit4
  | n + 5 => exact orlin_depositLoop (n + 5)

/-- number of bits of coordinate `d` the documented range allows -/
def rangeBits (D d : Nat) : Nat := if D = 3 ∧ d < 2 then 11 else 32 / D

theorem DocRange.lt {D : Nat} (h1 : 1 ≤ D) (h5 : D ≤ 5) {c : Coords D} (h : DocRange D c) (d : Fin D) :
    (c d).toNat < 2 ^ rangeBits D d := by
  obtain rfl | rfl | rfl | rfl | rfl : D = 1 ∨ D = 2 ∨ D = 3 ∨ D = 4 ∨ D = 5 := by omega
  · simpa [rangeBits] using (c d).isLt
  · have := h d; simp only [rangeBits]; norm_num; omega
  · obtain ⟨a, b, e⟩ := h
    match d with
    | 0 => simp only [rangeBits]; norm_num; omega
    | 1 => simp only [rangeBits]; norm_num; omega
    | 2 => simp only [rangeBits]; norm_num; omega
  · have := h d; simp only [rangeBits]; norm_num; omega
  · have := h d; simp only [rangeBits]; norm_num at this ⊢; omega

theorem morton_of_table {D : Nat} (hD : 0 < D) (h5 : D ≤ 5) (F : Coords D → BitVec 32) (hl : OrLin F)
    (ht : ∀ (d : Fin D) (b k : Fin 32), b.val < rangeBits D d →
      (F (single D d b)).getLsbD k = decide (k.val = D * b + d))
    (c : Coords D) (hc : DocRange D c) : IsMorton D hD c (F c) := by
  intro k hk
  have hb : ∀ d b, (c d).getLsbD b = true → b < rangeBits D d := by
    intro d b h
    by_contra hcon
    have h1 := DocRange.lt hD h5 hc d
    have h2 : 2 ^ rangeBits D d ≤ 2 ^ b := Nat.pow_le_pow_right (by omega) (by omega)
    have h3 : (c d).toNat.testBit b = false := Nat.testBit_lt_two_pow (by omega)
    rw [BitVec.testBit_toNat] at h3
    simp [h3] at h
  rw [Bool.eq_iff_iff, hl.bit]
  constructor
  · rintro ⟨d, b, h1, h2⟩
    rw [ht d b ⟨k, hk⟩ (hb d b h1)] at h2
    simp only [decide_eq_true_eq] at h2
    have hd : k % D = d := by
      rw [h2, Nat.mul_add_mod, Nat.mod_eq_of_lt d.isLt]
    have hq : k / D = b := by
      rw [h2, Nat.mul_add_div hD, Nat.div_eq_of_lt d.isLt, Nat.add_zero]
    have : (⟨k % D, Nat.mod_lt _ hD⟩ : Fin D) = d := Fin.ext hd
    rw [this, hq]; exact h1
  · intro h
    have hlt : k / D < 32 := lt_of_le_of_lt (Nat.div_le_self _ _) hk
    refine ⟨_, ⟨k / D, hlt⟩, h, ?_⟩
    rw [ht _ _ ⟨k, hk⟩ (hb _ _ h)]
    simp [Nat.div_add_mod]

theorem deposit_correct (D : Nat) (h1 : 1 ≤ D) (h5 : D ≤ 5) (c : Coords D) (hc : DocRange D c) :
    IsMorton D h1 c (deposit D c) := by
  refine morton_of_table h1 h5 (deposit D) (orlin_deposit D) ?_ c hc
  interval_cases D <;> decide +kernel

theorem depositBMI2_correct (D : Nat) (h1 : 1 ≤ D) (h5 : D ≤ 5) (c : Coords D) (hc : DocRange D c) :
    IsMorton D h1 c (depositBMI2 D c) := by
  refine morton_of_table h1 h5 (depositBMI2 D) (orlin_depositBMI2 D) ?_ c hc
  interval_cases D <;> decide +kernel

theorem IsMorton.unique {D : Nat} {hD : 0 < D} {c : Coords D} {x y : BitVec 32} (hx : IsMorton D hD c x)
    (hy : IsMorton D hD c y) : x = y := by
  apply BitVec.eq_of_getLsbD_eq
  intro i hi
  rw [hx i hi, hy i hi]

theorem IsDeinterleaved.unique {D : Nat} {x : BitVec 32} {c c' : Coords D} (hx : IsDeinterleaved D x c)
    (hy : IsDeinterleaved D x c') : c = c' := by
  funext d
  apply BitVec.eq_of_getLsbD_eq
  intro i hi
  rw [hx, hy]

end Girgs.Bits
