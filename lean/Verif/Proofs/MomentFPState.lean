import Verif.Proofs.MomentFP

/-! # The moment core as a function of the values

`mst` computes the mean and the sums of all orders from the values alone, without the configured orders. A core holds these numbers for the
orders it tracks. -/

namespace Verif.FP
open Verif.Spec Verif.MathUtil
open Verif.Moment (Core Config)

variable {F : Type} (A : Arith F)

/-- The sums after a removal, to depth `f`. -/
def remM (count delta : F) (s : Nat → F) : Nat → Nat → F
  | 0, k => s k
  | f + 1, k => if 2 ≤ k then removeV A count delta (fun i => if i < k then remM count delta s f i else s i) k else s k

/-- Make room in the window: `pts` are the values so far. -/
def roomM (w : Nat) (pts : List F) (p : F × (Nat → F)) : F × (Nat → F) :=
  if w ≠ 0 ∧ (lastN w pts).length = w then
    match lastN w pts with
    | y :: z :: ys =>
      let m := A.sub p.1 (A.div (A.sub y p.1) (A.ofInt (z :: ys).length))
      (m, fun k => remM A (A.ofInt (z :: ys).length) (A.sub y m) p.2 k k)
    | _ => (A.ofInt 0, fun _ => A.ofInt 0)
  else p

/-- Mean and sums after the values, newest first. -/
def mstR (w : Nat) (d : Option F) : List F → F × (Nat → F)
  | [] => (A.ofInt 0, fun _ => A.ofInt 0)
  | x :: r =>
    let p := roomM A w r.reverse (mstR w d r)
    let n := (lastN w (r.reverse ++ [x])).length
    match d with
    | none => (A.add p.1 (A.div (A.sub x p.1) (A.ofInt n)), fun k => if 2 ≤ k then addV A (A.ofInt n) (A.sub x p.1) p.2 k else p.2 k)
    | some dd =>
      let d' := if n = 1 then A.ofInt 1 else dd
      (A.add p.1 (A.mul d' (A.sub x p.1)), fun k => if 2 ≤ k then decayV A d' (A.sub x p.1) p.2 k else p.2 k)

/-- Mean and sums after the values `xs`. -/
def mst (w : Nat) (d : Option F) (xs : List F) : F × (Nat → F) := mstR A w d xs.reverse

theorem mst_nil (w : Nat) (d : Option F) : mst A w d [] = (A.ofInt 0, fun _ => A.ofInt 0) := rfl

theorem mst_add (w : Nat) (xs : List F) (x : F) :
    mst A w none (xs ++ [x]) =
      (A.add (roomM A w xs (mst A w none xs)).1 (A.div (A.sub x (roomM A w xs (mst A w none xs)).1) (A.ofInt (lastN w (xs ++ [x])).length)),
        fun k => if 2 ≤ k then addV A (A.ofInt (lastN w (xs ++ [x])).length) (A.sub x (roomM A w xs (mst A w none xs)).1)
          (roomM A w xs (mst A w none xs)).2 k else (roomM A w xs (mst A w none xs)).2 k) := by
  unfold mst
  rw [List.reverse_append]
  simp [mstR]

theorem mst_decay (w : Nat) (d : F) (xs : List F) (x : F) :
    mst A w (some d) (xs ++ [x]) =
      (A.add (roomM A w xs (mst A w (some d) xs)).1 (A.mul (if (lastN w (xs ++ [x])).length = 1 then A.ofInt 1 else d)
          (A.sub x (roomM A w xs (mst A w (some d) xs)).1)),
        fun k => if 2 ≤ k then decayV A (if (lastN w (xs ++ [x])).length = 1 then A.ofInt 1 else d)
          (A.sub x (roomM A w xs (mst A w (some d) xs)).1) (roomM A w xs (mst A w (some d) xs)).2 k
          else (roomM A w xs (mst A w (some d) xs)).2 k) := by
  unfold mst
  rw [List.reverse_append]
  simp [mstR]

theorem roomM_room {w : Nat} {pts : List F} {p : F × (Nat → F)} (h : w = 0 ∨ (lastN w pts).length < w) : roomM A w pts p = p := by
  unfold roomM
  rw [if_neg (by omega)]

theorem roomM_one {w : Nat} {pts : List F} {p : F × (Nat → F)} (hw : w = 1) (hp : pts ≠ []) :
    roomM A w pts p = (A.ofInt 0, fun _ => A.ofInt 0) := by
  subst hw
  have h1 := lastN_length 1 pts
  have h2 := List.length_pos_iff.2 hp
  unfold roomM
  rw [if_pos ⟨by omega, by rw [h1]; simp; omega⟩]
  match h : lastN 1 pts with
  | [] => rfl
  | [_] => rfl
  | _ :: _ :: _ => rw [h] at h1; simp at h1; omega

theorem roomM_evict {w : Nat} {pts : List F} {p : F × (Nat → F)} {y : F} {ys : List F} (h : lastN w pts = y :: ys)
    (hw : ys.length + 1 = w) (hne : ys ≠ []) :
    roomM A w pts p = (A.sub p.1 (A.div (A.sub y p.1) (A.ofInt ys.length)), fun k =>
      remM A (A.ofInt ys.length) (A.sub y (A.sub p.1 (A.div (A.sub y p.1) (A.ofInt ys.length)))) p.2 k k) := by
  unfold roomM
  rw [if_pos ⟨by omega, by rw [h]; simpa using hw⟩, h]
  cases ys with
  | nil => exact absurd rfl hne
  | cons z ys => rfl

theorem remM_depth (count delta : F) (s : Nat → F) : ∀ f g k, k ≤ f → k ≤ g → remM A count delta s f k = remM A count delta s g k := by
  intro f
  induction f with
  | zero =>
    intro g k hf _
    cases g with
    | zero => rfl
    | succ g => simp only [remM]; rw [if_neg (by omega)]
  | succ f ih =>
    intro g k hf hg
    cases g with
    | zero => simp only [remM]; rw [if_neg (by omega)]
    | succ g =>
      simp only [remM]
      by_cases hk : 2 ≤ k
      · rw [if_pos hk, if_pos hk]
        congr 1
        funext i
        by_cases hi : i < k
        · rw [if_pos hi, if_pos hi, ih g i (by omega) (by omega)]
        · rw [if_neg hi, if_neg hi]
      · rw [if_neg hk, if_neg hk]

theorem remM_eq (count delta : F) (s : Nat → F) (k : Nat) :
    remM A count delta s k k = if 2 ≤ k then removeV A count delta (fun i => if i < k then remM A count delta s i i else s i) k else s k := by
  cases k with
  | zero => simp [remM]
  | succ k =>
    simp only [remM]
    by_cases hk : 2 ≤ k + 1
    · rw [if_pos hk, if_pos hk]
      congr 1
      funext i
      by_cases hi : i < k + 1
      · rw [if_pos hi, if_pos hi, remM_depth A count delta s k i i (by omega) le_rfl]
      · rw [if_neg hi, if_neg hi]
    · rw [if_neg hk, if_neg hk]

/-- A core is the function `mst` of its values. -/
theorem track_mst (w : Nat) (d : Option F) (len : Nat) :
    Track A w d len
      (fun xs m s => m = (mst A w d xs).1 ∧ ∀ k, k < len → s k = (mst A w d xs).2 k)
      (fun xs m s => m = (roomM A w xs (mst A w d xs)).1 ∧ ∀ k, k < len → s k = (roomM A w xs (mst A w d xs)).2 k) where
  zero := ⟨rfl, fun _ _ => rfl⟩
  room := fun xs m s hr hI => by rw [roomM_room A hr]; exact hI
  evict1 := fun xs m s hw hx hI => by rw [roomM_one A hw hx]; exact ⟨rfl, fun _ _ => rfl⟩
  evict := fun xs y ys m s m' s' hl hw hne hI hr => by
    rw [roomM_evict A hl hw hne]
    obtain ⟨h1, h2⟩ := hI
    obtain ⟨r1, r2⟩ := hr
    subst h1
    refine ⟨r1, fun k => ?_⟩
    induction k using Nat.strong_induction_on with
    | _ k ih =>
      intro hk
      dsimp only
      rw [r2 k, remM_eq]
      by_cases h : 2 ≤ k
      · rw [if_pos ⟨h, hk⟩, if_pos h, r1]
        refine removeV_congr A (fun j h2' h3 => ?_) h
        by_cases hj : j < k
        · rw [if_pos hj, if_pos hj, ih j hj (by omega)]
        · rw [if_neg hj, if_neg hj, h2 j (by omega)]
      · rw [if_neg (by omega), if_neg h, h2 k hk]
  add := fun hd xs x m s m' s' hI hr => by
    subst hd
    obtain ⟨h1, h2⟩ := hI
    obtain ⟨r1, r2⟩ := hr
    subst h1
    rw [mst_add]
    refine ⟨r1, fun k hk => ?_⟩
    dsimp only
    rw [r2 k]
    by_cases h : 2 ≤ k
    · rw [if_pos ⟨h, hk⟩, if_pos h]
      exact addV_congr A (fun j h3 h4 => h2 j (by omega)) h
    · rw [if_neg (by omega), if_neg h, h2 k hk]
  decay := fun dd hd xs x m s m' s' hI hr => by
    subst hd
    obtain ⟨h1, h2⟩ := hI
    obtain ⟨r1, r2⟩ := hr
    subst h1
    rw [mst_decay]
    refine ⟨r1, fun k hk => ?_⟩
    dsimp only
    rw [r2 k]
    by_cases h : 2 ≤ k
    · rw [if_pos ⟨h, hk⟩, if_pos h]
      exact decayV_congr A (fun j h3 h4 => h2 j (by omega)) h
    · rw [if_neg (by omega), if_neg h, h2 k hk]

end Verif.FP
