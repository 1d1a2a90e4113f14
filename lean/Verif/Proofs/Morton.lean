import Verif.Spec.Morton
import Mathlib.Tactic.IntervalCases
/- Proofs that the bit tricks compute bit interleaving: every function involved is OR-linear, so it is determined by
its values on single bits, which form a finite table. -/
namespace Girgs.Bits
open Spec

/-- the coordinate tuple with exactly bit `b` of coordinate `d` set -/
def single (D : Nat) (d : Fin D) (b : Nat) : Coords D := fun d' => if d' = d then BitVec.twoPow 32 b else 0#32

/-- OR-linear maps -/
structure OrLin {D m : Nat} (F : Coords D → BitVec m) : Prop where
  zero : F (fun _ => 0#32) = 0#m
  or : ∀ c c', F (fun d => c d ||| c' d) = F c ||| F c'

def pairs (D : Nat) : List (Fin D × Fin 32) :=
  (List.finRange D).flatMap fun d => (List.finRange 32).map fun b => (d, b)

theorem mem_pairs (D : Nat) (d : Fin D) (b : Fin 32) : (d, b) ∈ pairs D := by
  simp [pairs]

def recomp {D : Nat} (c : Coords D) (L : List (Fin D × Fin 32)) : Coords D :=
  L.foldr (fun p acc => fun d' => (if (c p.1).getLsbD p.2 then single D p.1 p.2 d' else 0#32) ||| acc d') (fun _ => 0#32)

theorem recomp_bit {D : Nat} (c : Coords D) (L : List (Fin D × Fin 32)) (d : Fin D) (b : Nat) :
    (recomp c L d).getLsbD b = true ↔ ∃ h : b < 32, (d, ⟨b, h⟩) ∈ L ∧ (c d).getLsbD b = true := by
  induction L with
  | nil => simp [recomp]
  | cons p L ih =>
    have : recomp c (p :: L) d = (if (c p.1).getLsbD p.2 then single D p.1 p.2 d else 0#32) ||| recomp c L d := rfl
    rw [this, BitVec.getLsbD_or, Bool.or_eq_true, ih]
    constructor
    · rintro (h | ⟨h, h1, h2⟩)
      · split at h
        · rename_i hp
          unfold single at h
          split at h
          · rename_i hd
            subst hd
            simp only [BitVec.getLsbD_twoPow] at h
            simp only [Bool.and_eq_true, decide_eq_true_eq] at h
            refine ⟨by omega, ?_, ?_⟩
            · rw [List.mem_cons]; left; apply Prod.ext; rfl; apply Fin.ext; simp [h.2]
            · rw [← h.2]; exact hp
          · simp at h
        · simp at h
      · exact ⟨h, by simp [h1], h2⟩
    · rintro ⟨h, h1, h2⟩
      rcases List.mem_cons.1 h1 with h1 | h1
      · left
        subst h1
        simp [h2, single, BitVec.getLsbD_twoPow, h]
      · right; exact ⟨h, h1, h2⟩

theorem recomp_pairs {D : Nat} (c : Coords D) : recomp c (pairs D) = c := by
  funext d
  apply BitVec.eq_of_getLsbD_eq
  intro i hi
  rw [Bool.eq_iff_iff, recomp_bit]
  simp [hi, mem_pairs]

theorem OrLin.recomp {D m : Nat} {F : Coords D → BitVec m} (hF : OrLin F) (c : Coords D)
    (L : List (Fin D × Fin 32)) (k : Nat) :
    (F (Bits.recomp c L)).getLsbD k = true ↔
      ∃ p ∈ L, (c p.1).getLsbD p.2 = true ∧ (F (single D p.1 p.2)).getLsbD k = true := by
  induction L with
  | nil => simp [Bits.recomp, hF.zero]
  | cons p L ih =>
    have : Bits.recomp c (p :: L) =
      fun d' => (fun d' => if (c p.1).getLsbD p.2 then single D p.1 p.2 d' else 0#32) d' ||| Bits.recomp c L d' := rfl
    rw [this, hF.or, BitVec.getLsbD_or, Bool.or_eq_true, ih]
    constructor
    · rintro (h | ⟨q, h1, h2⟩)
      · by_cases hp : (c p.1).getLsbD p.2 = true
        · simp only [hp, if_true] at h
          exact ⟨p, by simp, hp, h⟩
        · simp only [hp] at h
          have := hF.zero
          simp_all
      · exact ⟨q, by simp [h1], h2⟩
    · rintro ⟨q, h1, h2, h3⟩
      rcases List.mem_cons.1 h1 with h1 | h1
      · left; subst h1; simp only [h2, if_true]; exact h3
      · right; exact ⟨q, h1, h2, h3⟩

theorem OrLin.bit {D m : Nat} {F : Coords D → BitVec m} (hF : OrLin F) (c : Coords D) (k : Nat) :
    (F c).getLsbD k = true ↔
      ∃ (d : Fin D) (b : Fin 32), (c d).getLsbD b = true ∧ (F (single D d b)).getLsbD k = true := by
  conv_lhs => rw [← recomp_pairs c]
  rw [hF.recomp]
  constructor
  · rintro ⟨⟨d, b⟩, _, h⟩; exact ⟨d, b, h⟩
  · rintro ⟨d, b, h⟩; exact ⟨(d, b), mem_pairs D d b, h⟩

/-! ### closure properties of OR-linearity -/

theorem or_or_or_comm' {w} (a b c d : BitVec w) : a ||| b ||| (c ||| d) = a ||| c ||| (b ||| d) := by
  ext i; simp; cases a[i] <;> cases b[i] <;> cases c[i] <;> simp

theorem OrLin.proj {D : Nat} (d : Fin D) : OrLin (fun c : Coords D => c d) := ⟨rfl, fun _ _ => rfl⟩

theorem OrLin.orF {D m} {F G : Coords D → BitVec m} (hF : OrLin F) (hG : OrLin G) :
    OrLin (fun c => F c ||| G c) :=
  ⟨by simp [hF.zero, hG.zero], fun c c' => by
    show F _ ||| G _ = _
    rw [hF.or, hG.or, or_or_or_comm']⟩

/-- additive maps between words -/
structure Lin {m n : Nat} (f : BitVec m → BitVec n) : Prop where
  zero : f 0#m = 0#n
  or : ∀ x y, f (x ||| y) = f x ||| f y

theorem Lin.comp {D m n} {f : BitVec m → BitVec n} (hf : Lin f) {F : Coords D → BitVec m} (hF : OrLin F) :
    OrLin (fun c => f (F c)) := ⟨by rw [hF.zero, hf.zero], fun c c' => by rw [hF.or, hf.or]⟩

theorem Lin.comp' {m n l} {f : BitVec m → BitVec n} (hf : Lin f) {g : BitVec l → BitVec m} (hg : Lin g) :
    Lin (fun c => f (g c)) := ⟨by rw [hg.zero, hf.zero], fun c c' => by rw [hg.or, hf.or]⟩

theorem Lin.id {m} : Lin (fun x : BitVec m => x) := ⟨rfl, fun _ _ => rfl⟩

theorem Lin.shl {m} (k : Nat) : Lin (fun x : BitVec m => x <<< k) :=
  ⟨by simp, fun x y => by
    apply BitVec.eq_of_getLsbD_eq; intro i hi
    simp only [BitVec.getLsbD_or, BitVec.getLsbD_shiftLeft]; grind⟩

theorem Lin.shr {m} (k : Nat) : Lin (fun x : BitVec m => x >>> k) :=
  ⟨by simp, fun x y => by
    apply BitVec.eq_of_getLsbD_eq; intro i hi
    simp only [BitVec.getLsbD_or, BitVec.getLsbD_ushiftRight]⟩

theorem Lin.mask {m} (p : BitVec m) : Lin (fun x : BitVec m => x &&& p) :=
  ⟨by simp, fun x y => by
    apply BitVec.eq_of_getLsbD_eq; intro i hi
    simp only [BitVec.getLsbD_or, BitVec.getLsbD_and]; grind⟩

theorem Lin.setWidth {m} (n : Nat) : Lin (fun x : BitVec m => x.setWidth n) :=
  ⟨by simp, fun x y => by
    apply BitVec.eq_of_getLsbD_eq; intro i hi
    simp only [BitVec.getLsbD_or, BitVec.getLsbD_setWidth]; grind⟩

theorem Lin.orF {m n} {f g : BitVec m → BitVec n} (hf : Lin f) (hg : Lin g) : Lin (fun x => f x ||| g x) :=
  ⟨by simp [hf.zero, hg.zero], fun x y => by
    show f _ ||| g _ = _
    rw [hf.or, hg.or, or_or_or_comm']⟩

theorem Lin.shift {w} (pat : Nat → Nat → BitVec w) (bits fuel : Nat) :
    ∀ space block, Lin (shift pat bits fuel space block) := by
  induction fuel with
  | zero => intro s b; exact Lin.id
  | succ f ih =>
    intro s b
    have : Bits.shift pat bits (f + 1) s b = fun x =>
      if b ≥ bits then x &&& pat s b
      else Bits.shift pat bits f (2 * s) (2 * b) ((x &&& pat s b) ||| ((x &&& pat s b) >>> s)) := rfl
    rw [this]
    by_cases hb : b ≥ bits
    · simp only [hb, if_true]; exact Lin.mask _
    · simp only [hb, if_false]
      exact Lin.comp' (ih _ _) (Lin.orF (Lin.mask _) (Lin.comp' (Lin.shr s) (Lin.mask _)))

theorem Lin.ite {m n} (p : Prop) [Decidable p] {f g : BitVec m → BitVec n} (hf : Lin f) (hg : Lin g) :
    Lin (fun x => if p then f x else g x) := by
  split <;> assumption

theorem Lin.pextGo (mask : BitVec 32) (n : Nat) : ∀ m k, Lin (fun x => pextGo x mask n m k) := by
  induction n with
  | zero => intro m k; exact ⟨rfl, fun _ _ => by simp [Bits.pextGo]⟩
  | succ n ih =>
    intro m k
    by_cases hm : mask.getLsbD m
    · simp only [Bits.pextGo, hm, if_true]
      refine Lin.orF ⟨by simp, fun x y => ?_⟩ (ih _ _)
      simp only [BitVec.getLsbD_or]
      cases x.getLsbD m <;> cases y.getLsbD m <;> simp
    · simp only [Bits.pextGo, hm]
      exact ih _ _

theorem Lin.pdepGo (mask : BitVec 32) (n : Nat) : ∀ m k, Lin (fun x => pdepGo x mask n m k) := by
  induction n with
  | zero => intro m k; exact ⟨rfl, fun _ _ => by simp [Bits.pdepGo]⟩
  | succ n ih =>
    intro m k
    by_cases hm : mask.getLsbD m
    · simp only [Bits.pdepGo, hm, if_true]
      refine Lin.orF ⟨by simp, fun x y => ?_⟩ (ih _ _)
      simp only [BitVec.getLsbD_or]
      cases x.getLsbD k <;> cases y.getLsbD k <;> simp
    · simp only [Bits.pdepGo, hm]
      exact ih _ _

/-! ### linear maps of one word are determined by single bits -/

theorem Lin.bit {n} {f : BitVec 32 → BitVec n} (hf : Lin f) (x : BitVec 32) (k : Nat) :
    (f x).getLsbD k = true ↔ ∃ b : Fin 32, x.getLsbD b = true ∧ (f (BitVec.twoPow 32 b)).getLsbD k = true := by
  have h := (Lin.comp hf (OrLin.proj (D := 1) 0)).bit (fun _ => x) k
  rw [h]
  constructor
  · rintro ⟨d, b, h1, h2⟩
    obtain rfl : d = 0 := Subsingleton.elim _ _
    exact ⟨b, h1, by simpa [single] using h2⟩
  · rintro ⟨b, h1, h2⟩
    exact ⟨0, b, h1, by simpa [single] using h2⟩

end Girgs.Bits
