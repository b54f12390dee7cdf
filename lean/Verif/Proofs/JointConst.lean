import Verif.Proofs.JointFPState
import Verif.Proofs.Rounded

/-! # A joint core that sees one point over and over -/

set_option linter.unusedSectionVars false

namespace Verif.JFP
open Verif Verif.Spec Verif.MathUtil
open Verif.FP (Arith)
open Verif.Joint (Tuple Map Core Config Under abs)

section any
variable {F : Type} {A : Arith F}

theorem AllZero.get {m : Map F} (h : AllZero A m) (k : Int) : get A m k = A.ofInt 0 := by
  unfold JFP.get
  cases hk : m k with
  | none => rfl
  | some v => exact h k v hk

theorem AllZero.set {m : Map F} (h : AllZero A m) (k : Int) {v : F} (hv : v = A.ofInt 0) : AllZero A (Map.set m k v) := by
  intro j u hu
  unfold Map.set at hu
  by_cases e : j = k
  · subst e
    rw [Function.update_self] at hu
    rw [← Option.some.inj hu, hv]
  · rw [Function.update_of_ne e] at hu
    exact h j u hu

theorem AllZero.copy {s m : Map F} (hs : AllZero A s) (h : AllZero A m) : AllZero A (Map.copy s m) := by
  intro k v hv
  unfold Map.copy at hv
  cases hk : m k with
  | none => rw [hk] at hv; exact hs k v (by simpa using hv)
  | some u => rw [hk] at hv; exact h k v (by rw [hk]; simpa using hv)

end any

variable {rnd : ℚ → ℚ} {pw : ℚ → Nat → ℚ}

/-- The ways a sum may change leave zeros alone. -/
structure ZeroRule (ts : List Tuple) (r : Rule ℚ) (dp : Tuple → ℚ) : Prop where
  base : r.base 0 = 0
  op : r.op 0 0 = 0
  full : ∀ t ∈ ts, ∀ b, Under b t → abs b ≠ 0 → r.full (abs b).toNat (dp b) = 0
  part : ∀ m n d, r.part m n d 0 = 0

theorem keeps_zero (h0 : rnd 0 = 0) {ts : List Tuple} {r : Rule ℚ} {δ : List ℚ} {sums : Map ℚ} (hs : AllZero (Arith.rounded rnd pw) sums)
    (hr : ZeroRule ts r (powLoop (Arith.rounded rnd pw) ((Arith.rounded rnd pw).ofInt 1) δ)) :
    Keeps (Arith.rounded rnd pw) ts r δ sums (AllZero (Arith.rounded rnd pw)) := by
  have hz : (Arith.rounded rnd pw).ofInt 0 = 0 := by simp [Arith.rounded, h0]
  refine ⟨fun t _ a _ ns hns => hns.set _ rfl, fun t ht a ha b hb ns hns => hns.set _ ?_⟩
  unfold termV
  have e1 : ∀ k, get (Arith.rounded rnd pw) (if r.fresh = true then ns else sums) k = 0 := by
    intro k
    split_ifs
    · rw [hns.get, hz]
    · rw [hs.get, hz]
  simp only [hs.get, hns.get, hz, e1]
  by_cases hb0 : abs b = 0
  · rw [if_pos hb0, hr.base]
    simp [Arith.rounded, h0]
  rw [if_neg hb0]
  by_cases he : Joint.eq b a = true
  · rw [if_pos he, hr.full t ht b (under_trans hb ha) hb0, hr.op]
  · rw [if_neg he, hr.part, hr.op]

theorem powLoop_nil (h0 : rnd 0 = 0) (xs : List ℚ) (b : Tuple) : powLoop (Arith.rounded rnd pw) 0 xs b = 0 := by
  induction xs generalizing b with
  | nil => cases b <;> rfl
  | cons x xs ih =>
    cases b with
    | nil => rfl
    | cons k b =>
      unfold powLoop
      rw [show (Arith.rounded rnd pw).mul 0 ((Arith.rounded rnd pw).pow x k.toNat) = 0 by simp [Arith.rounded, h0], ih]

theorem powLoop_zeros (h0 : rnd 0 = 0) (hpw : ∀ k, 1 ≤ k → pw 0 k = 0) {n : Nat} {b : Tuple} (hl : b.length = n) (hb : ∃ k ∈ b, 0 < k) (r : ℚ) :
    powLoop (Arith.rounded rnd pw) r (List.replicate n 0) b = 0 := by
  induction b generalizing n r with
  | nil => simp at hb
  | cons k b ih =>
    obtain ⟨m, rfl⟩ : ∃ m, n = m + 1 := ⟨b.length, by simpa using hl.symm⟩
    rw [List.replicate_succ]
    unfold powLoop
    by_cases hk : 0 < k
    · rw [show (Arith.rounded rnd pw).mul r ((Arith.rounded rnd pw).pow 0 k.toNat) = 0 by
        have := hpw k.toNat (by omega)
        simp [Arith.rounded, h0, this], powLoop_nil h0]
    · refine ih (by simpa using hl) ?_ _
      obtain ⟨j, hj, hj0⟩ := hb
      rcases List.mem_cons.1 hj with rfl | hj
      · exact absurd hj0 hk
      · exact ⟨j, hj, hj0⟩

theorem exists_pos {n : Nat} {b : Tuple} (hb : TOK n b) (h0 : abs b ≠ 0) : ∃ k ∈ b, 0 < k := by
  by_contra hc
  push Not at hc
  exact h0 (abs_zero fun k hk => le_antisymm (hc k hk) (hb.2 k hk).1)

/-- Once the mean is the point, the deltas are zero, whatever the rule. -/
theorem zeroRule_still (h0 : rnd 0 = 0) (hpw : ∀ k, 1 ≤ k → pw 0 k = 0) {n : Nat} {ts : List Tuple} (hts : ∀ t ∈ ts, TOK n t) {r : Rule ℚ}
    (hbase : r.base 0 = 0) (hop : r.op 0 0 = 0) (hpart : ∀ m n d, r.part m n d 0 = 0) (hfull : ∀ m, r.full m 0 = 0) :
    ZeroRule ts r (powLoop (Arith.rounded rnd pw) ((Arith.rounded rnd pw).ofInt 1) (List.replicate n 0)) :=
  ⟨hbase, hop, fun t ht b hb hb0 => by
    have := (hts t ht).under hb
    rw [powLoop_zeros h0 hpw this.1 (exists_pos this hb0), hfull], hpart⟩

theorem zipWith_self (h0 : rnd 0 = 0) (x : List ℚ) : List.zipWith (fun x m => (Arith.rounded rnd pw).sub x m) x x = List.replicate x.length 0 := by
  induction x with
  | nil => rfl
  | cons a x ih => rw [List.zipWith_cons_cons, ih]; simp [Arith.rounded, h0, List.replicate_succ]

theorem zipWith_start {x : List ℚ} (hx : ∀ a ∈ x, rnd a = a) :
    List.zipWith (fun x m => (Arith.rounded rnd pw).sub x m) x (List.replicate x.length 0) = x := by
  induction x with
  | nil => rfl
  | cons a x ih =>
    rw [List.length_cons, List.replicate_succ, List.zipWith_cons_cons, ih fun a h => hx a (List.mem_cons_of_mem _ h)]
    simp [Arith.rounded, hx a List.mem_cons_self]

theorem zipWith_keep {f : ℚ → ℚ → ℚ} {x : List ℚ} (hx : ∀ a ∈ x, f a 0 = a) : List.zipWith f x (List.replicate x.length 0) = x := by
  induction x with
  | nil => rfl
  | cons a x ih =>
    rw [List.length_cons, List.replicate_succ, List.zipWith_cons_cons, ih fun a h => hx a (List.mem_cons_of_mem _ h), hx a List.mem_cons_self]

theorem zipWith_jump {f : ℚ → ℚ → ℚ} {x : List ℚ} (hx : ∀ a ∈ x, f 0 a = a) : List.zipWith f (List.replicate x.length 0) x = x := by
  induction x with
  | nil => rfl
  | cons a x ih =>
    rw [List.length_cons, List.replicate_succ, List.zipWith_cons_cons, ih fun a h => hx a (List.mem_cons_of_mem _ h), hx a List.mem_cons_self]

theorem zipWith_evict (h0 : rnd 0 = 0) {x : List ℚ} (hx : ∀ a ∈ x, rnd a = a) (q : ℚ) :
    List.zipWith (fun x m => (Arith.rounded rnd pw).sub m ((Arith.rounded rnd pw).div ((Arith.rounded rnd pw).sub x m) q)) x x = x := by
  induction x with
  | nil => rfl
  | cons a x ih =>
    rw [List.zipWith_cons_cons, ih fun a h => hx a (List.mem_cons_of_mem _ h)]
    simp [Arith.rounded, h0, hx a List.mem_cons_self]

/-- The means are the point, the sums are zero. -/
theorem track_const (h0 : rnd 0 = 0) (h1 : rnd 1 = 1) (hpw : ∀ k, 1 ≤ k → pw 0 k = 0) {n : Nat} {x : List ℚ} (hxl : x.length = n)
    (hx : ∀ a ∈ x, rnd a = a) (w : Nat) (d : Option ℚ) {ts : List Tuple} (hts : ∀ t ∈ ts, TOK n t) (hsm : ∀ t ∈ ts, t.sum < 2 ^ 63) :
    Track (Arith.rounded rnd pw) n w d ts
      (fun xs m s ns => (∀ y ∈ xs, y = x) → (xs ≠ [] → m = x) ∧ (xs = [] → m = List.replicate n 0) ∧
        AllZero (Arith.rounded rnd pw) s ∧ AllZero (Arith.rounded rnd pw) ns)
      (fun xs m s ns => (∀ y ∈ xs, y = x) → (m = x ∨ (m = List.replicate n 0 ∧ ∀ z, (lastN w (xs ++ [z])).length = 1)) ∧
        AllZero (Arith.rounded rnd pw) s ∧ AllZero (Arith.rounded rnd pw) ns) := by
  have hz : (Arith.rounded rnd pw).ofInt 0 = 0 := by simp [Arith.rounded, h0]
  have hone : (Arith.rounded rnd pw).ofInt 1 = 1 := by simp [Arith.rounded, h1]
  have hpos : ∀ t ∈ ts, ∀ b, Under b t → abs b ≠ 0 → 1 ≤ (abs b).toNat := by
    intro t ht b hb hb0
    have hT := (hts t ht).under hb
    have hle := under_sum_le hb
    have hs := abs_of_small hT (lt_of_le_of_lt hle (hsm t ht))
    have := sum_pos (fun k hk => (hT.2 k hk).1) hb0
    omega
  constructor
  · intro s ns _ _ hs hns _
    exact ⟨fun h => absurd rfl h, fun _ => by rw [hz], hs, hns⟩
  · intro xs m s ns _ hI hxs
    obtain ⟨a, b, c⟩ := hI hxs
    refine ⟨?_, c⟩
    by_cases e : xs = []
    · subst e
      refine .inr ⟨b rfl, fun z => ?_⟩
      rw [lastN_length]
      split_ifs <;> simp
      omega
    · exact .inl (a e)
  · intro xs m s ns hw hne hI hxs
    refine ⟨.inr ⟨by rw [hz], fun z => ?_⟩, zeroMap_zero _ s, zeroMap_zero _ ns⟩
    rw [lastN_length, hw]
    simp
  · intro xs y ys m s ns s' ns' hl hw hys hyl hml hk hk' hI hr hxs
    have hne : xs ≠ [] := by rintro rfl; simp [lastN] at hl
    obtain ⟨a, -, c, c'⟩ := hI hxs
    have hm := a hne
    have hy : y = x := hxs y (by
      have : y ∈ lastN w xs := by rw [hl]; exact List.mem_cons_self
      unfold lastN at this
      split_ifs at this
      · exact this
      · exact List.mem_of_mem_drop this)
    subst hm
    subst hy
    have hnew := zipWith_evict (pw := pw) h0 hx ((Arith.rounded rnd pw).ofInt ys.length)
    rw [hnew] at hr ⊢
    rw [zipWith_self h0, hxl] at hr
    obtain ⟨s1, n1, e, z1, z2⟩ := removeAll_val (Arith.rounded rnd pw) hts (n := n) (δ := List.replicate n 0)
      (r := removeRule (Arith.rounded rnd pw) ((Arith.rounded rnd pw).ofInt ys.length)) (by simp)
      (P := fun s ns => AllZero (Arith.rounded rnd pw) s ∧ AllZero (Arith.rounded rnd pw) ns) (by
        intro sums
        have hR := zeroRule_still (pw := pw) h0 hpw hts (r := removeRule (Arith.rounded rnd pw) ((Arith.rounded rnd pw).ofInt ys.length))
          rfl (by simp [removeRule, Arith.rounded, h0]) (by simp [removeRule, Arith.rounded, h0]) (by simp [removeRule, Arith.rounded, h0])
        exact ⟨fun t ht a ha ns hns => ⟨hns.1, (keeps_zero h0 hns.1 hR).zero t ht a ha ns hns.2⟩,
          fun t ht a ha b hb ns hns => ⟨hns.1, (keeps_zero h0 hns.1 hR).term t ht a ha b hb ns hns.2⟩⟩)
      (fun s ns h => ⟨h.1.copy h.2, h.2⟩) ts (fun _ h => h) s ns ⟨c, c'⟩
    rw [e] at hr
    simp only [Go.val.injEq, Prod.mk.injEq, and_true] at hr
    obtain ⟨rfl, rfl⟩ := hr
    exact ⟨.inl rfl, z1, z2⟩
  · intro _ xs z m s ns ns' hzl hml hk hk' hI hr hxs
    obtain ⟨a, c, c'⟩ := hI (fun y hy => hxs y (by simp [hy]))
    have hzx : z = x := hxs z (by simp)
    subst hzx
    have fin : List.zipWith (fun m d => (Arith.rounded rnd pw).add m ((Arith.rounded rnd pw).div d ((Arith.rounded rnd pw).ofInt
          (lastN w (xs ++ [z])).length))) m (List.zipWith (fun x m => (Arith.rounded rnd pw).sub x m) z m) = z ∧
        ZeroRule ts (addRule (Arith.rounded rnd pw) ((Arith.rounded rnd pw).ofInt (lastN w (xs ++ [z])).length))
          (powLoop (Arith.rounded rnd pw) ((Arith.rounded rnd pw).ofInt 1) (List.zipWith (fun x m => (Arith.rounded rnd pw).sub x m) z m)) := by
      rcases a with rfl | ⟨rfl, h1'⟩
      · rw [zipWith_self h0]
        refine ⟨zipWith_keep fun a ha => by simp [Arith.rounded, h0, hx a ha], ?_⟩
        rw [hxl]
        exact zeroRule_still h0 hpw hts rfl (by simp [addRule, Arith.rounded, h0]) (by simp [addRule, Arith.rounded, h0])
          (by simp [addRule, Arith.rounded, h0])
      · rw [← hxl, zipWith_start hx, h1' z]
        refine ⟨zipWith_jump fun a ha => by simp [Arith.rounded, h1, hx a ha], rfl, ?_, fun t ht b hb hb0 => ?_, ?_⟩
        · simp [addRule, Arith.rounded, h0]
        · simp [addRule, Arith.rounded, h0, h1]
        · simp [addRule, Arith.rounded, h0]
    obtain ⟨n1, e, z1⟩ := updateAll_val (Arith.rounded rnd pw) hts (by simp [hml, hzl]) (keeps_zero h0 c fin.2) ts (fun _ h => h) ns c'
    rw [e] at hr
    simp only [Go.val.injEq, Prod.mk.injEq, and_true] at hr
    subst hr
    exact ⟨fun _ => fin.1, fun h => absurd h (by simp), c.copy z1, z1⟩
  · intro dd _ xs z m s ns ns' hzl hml hk hk' hI hr hxs
    obtain ⟨a, c, c'⟩ := hI (fun y hy => hxs y (by simp [hy]))
    have hzx : z = x := hxs z (by simp)
    subst hzx
    have fin : List.zipWith (fun m e => (Arith.rounded rnd pw).add m ((Arith.rounded rnd pw).mul
          (if (lastN w (xs ++ [z])).length = 1 then (Arith.rounded rnd pw).ofInt 1 else dd) e)) m
          (List.zipWith (fun x m => (Arith.rounded rnd pw).sub x m) z m) = z ∧
        ZeroRule ts (decayRule (Arith.rounded rnd pw) (if (lastN w (xs ++ [z])).length = 1 then (Arith.rounded rnd pw).ofInt 1 else dd))
          (powLoop (Arith.rounded rnd pw) ((Arith.rounded rnd pw).ofInt 1) (List.zipWith (fun x m => (Arith.rounded rnd pw).sub x m) z m)) := by
      rcases a with rfl | ⟨rfl, h1'⟩
      · rw [zipWith_self h0]
        refine ⟨zipWith_keep fun a ha => by simp [Arith.rounded, h0, hx a ha], ?_⟩
        rw [hxl]
        exact zeroRule_still h0 hpw hts (by simp [decayRule, Arith.rounded, h0]) (by simp [decayRule, Arith.rounded, h0])
          (by simp [decayRule, Arith.rounded, h0]) (by simp [decayRule, Arith.rounded, h0])
      · rw [← hxl, zipWith_start hx, h1' z, if_pos rfl, hone]
        refine ⟨zipWith_jump fun a ha => by simp [Arith.rounded, hx a ha], ?_, ?_, fun t ht b hb hb0 => ?_, ?_⟩
        · simp [decayRule, Arith.rounded, h0]
        · simp [decayRule, Arith.rounded, h0]
        · simp [decayRule, Arith.rounded, h0, h1, hpw _ (hpos t ht b hb hb0)]
        · simp [decayRule, Arith.rounded, h0]
    obtain ⟨n1, e, z1⟩ := updateAll_val (Arith.rounded rnd pw) hts (by simp [hml, hzl]) (keeps_zero h0 c fin.2) ts (fun _ h => h) ns c'
    rw [e] at hr
    simp only [Go.val.injEq, Prod.mk.injEq, and_true] at hr
    subst hr
    exact ⟨fun _ => fin.1, fun h => absurd h (by simp), c.copy z1, z1⟩

end Verif.JFP
