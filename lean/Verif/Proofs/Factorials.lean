import Verif.Model.Factorials
import Verif.Proofs.Moment

/-! # The shared factorial table: when it is harmless -/

namespace Verif.Fact
open Verif Verif.MathUtil Ask

set_option linter.unusedSectionVars false

/-! ## A push asks for factorials -/

section eval
variable {α β : Type} {fac : Int → Go Int}

theorem Ask.eval_bind (p : Ask α) (f : α → Ask β) : (p.bind f).eval fac = (p.eval fac >>= fun a => (f a).eval fac) := by
  induction p with
  | done r => cases r <;> rfl
  | ask n k ih =>
    simp only [Ask.bind, Ask.eval]
    rcases fac n with v | _ | _
    · exact ih v
    · rfl
    · rfl

theorem binomA_eval (n k : Int) : (binomA n k).eval factorial = binom n k := by
  unfold binomA binom
  by_cases h : k = 0 ∨ k = n
  · rw [if_pos h, if_pos h]; rfl
  · rw [if_neg h, if_neg h]
    simp only [Ask.eval]
    rcases factorial n with a | _ | _
    · rcases factorial k with b | _ | _
      · rcases factorial (n - k) with c | _ | _ <;> rfl
      · rfl
      · rfl
    · rfl
    · rfl

end eval

section moment
variable {K : Type} [Field K]
open Moment

theorem coefA_eval (k i : Nat) : (coefA k i : Ask K).eval factorial = coef k i := by
  unfold coefA coef
  rw [eval_bind, binomA_eval]
  rcases binom k i with b | _ | _ <;> rfl

theorem sumLoopA_eval {term : Nat → Ask K} {term' : Nat → Go K} (h : ∀ i, (term i).eval factorial = term' i) (n i : Nat) (acc : K) :
    (sumLoopA term n i acc).eval factorial = sumLoop term' n i acc := by
  induction n generalizing i acc with
  | zero => rfl
  | succ n ih =>
    simp only [sumLoopA, sumLoop]
    rw [eval_bind, h]
    rcases term' i with t | _ | _
    · exact ih _ _
    · rfl
    · rfl

theorem addEntryA_eval (count delta : K) (s : Nat → K) (k : Nat) : (addEntryA count delta s k).eval factorial = addEntry count delta s k := by
  refine sumLoopA_eval (fun i => ?_) _ _ _
  rw [eval_bind, coefA_eval]
  rfl

theorem addLoopA_eval (count delta : K) (n : Nat) (s : Nat → K) : (addLoopA count delta n s).eval factorial = addLoop count delta n s := by
  induction n using Nat.twoStepInduction generalizing s with
  | zero => rfl
  | one => rfl
  | more k _ ih =>
    simp only [addLoopA, addLoop]
    rw [eval_bind, addEntryA_eval]
    rcases addEntry count delta s (k + 2) with v | _ | _
    · exact ih _
    · rfl
    · rfl

theorem addA_eval (c : Core K) (x : K) : (addA c x).eval factorial = add c x := by
  unfold addA add
  simp only
  rw [eval_bind, addLoopA_eval]
  rcases addLoop _ _ _ _ with v | _ | _ <;> rfl

theorem decayEntryA_eval (d delta : K) (s : Nat → K) (k : Nat) : (decayEntryA d delta s k).eval factorial = decayEntry d delta s k := by
  refine sumLoopA_eval (fun i => ?_) _ _ _
  rw [eval_bind, coefA_eval]
  rfl

theorem decayLoopA_eval (d delta : K) (n : Nat) (s : Nat → K) : (decayLoopA d delta n s).eval factorial = decayLoop d delta n s := by
  induction n using Nat.twoStepInduction generalizing s with
  | zero => rfl
  | one => rfl
  | more k _ ih =>
    simp only [decayLoopA, decayLoop]
    rw [eval_bind, decayEntryA_eval]
    rcases decayEntry d delta s (k + 2) with v | _ | _
    · exact ih _
    · rfl
    · rfl

theorem addDecayA_eval (d : K) (c : Core K) (x : K) : (addDecayA d c x).eval factorial = addDecay d c x := by
  unfold addDecayA addDecay
  simp only
  rw [eval_bind, decayLoopA_eval]
  rcases decayLoop _ _ _ _ with v | _ | _ <;> rfl

theorem removeEntryA_eval (count delta : K) (s : Nat → K) (k : Nat) :
    (removeEntryA count delta s k).eval factorial = removeEntry count delta s k := by
  refine sumLoopA_eval (fun i => ?_) _ _ _
  rw [eval_bind, coefA_eval]
  rfl

theorem removeLoopA_eval (count delta : K) (n k : Nat) (s : Nat → K) :
    (removeLoopA count delta n k s).eval factorial = removeLoop count delta n k s := by
  induction n generalizing k s with
  | zero => rfl
  | succ n ih =>
    simp only [removeLoopA, removeLoop]
    rw [eval_bind, removeEntryA_eval]
    rcases removeEntry count delta s k with v | _ | _
    · exact ih _ _
    · rfl
    · rfl

theorem removeA_eval (c : Core K) (x : K) : (removeA c x).eval factorial = remove c x := by
  unfold removeA remove
  simp only
  by_cases h : c.count - 1 > 0
  · rw [if_pos h, if_pos h, eval_bind, removeLoopA_eval]
    rcases removeLoop _ _ _ _ _ with v | _ | _ <;> rfl
  · rw [if_neg h, if_neg h]; rfl

theorem evictA_eval (c : Core K) : (evictA c).eval factorial = evict c := by
  unfold evictA evict
  by_cases h : (c.queue.len : Int) = c.window
  · rw [if_pos h, if_pos h]
    rcases c.queue.get with (e | ⟨t, q⟩) | _ | _
    · rfl
    · dsimp only
      rw [eval_bind, removeA_eval]
      rcases remove _ _ with v | _ | _ <;> rfl
    · rfl
    · rfl
  · rw [if_neg h, if_neg h]; rfl

theorem pushAddA_eval (c : Core K) (x : K) : (pushAddA c x).eval factorial = pushAdd c x := by
  unfold pushAddA pushAdd
  rw [eval_bind]
  rcases c.decay with _ | d
  · dsimp only
    rw [addA_eval]
    rcases add c x with v | _ | _ <;> rfl
  · dsimp only
    rw [addDecayA_eval]
    rcases addDecay d c x with v | _ | _ <;> rfl

/-- With the right answers the program is `Push`. -/
theorem pushA_eval (c : Core K) (x : K) : (pushA c x).eval factorial = push c x := by
  unfold pushA push
  by_cases h : c.window ≠ 0
  · rw [if_pos h, if_pos h, eval_bind, evictA_eval]
    rcases evict c with (e | c') | _ | _
    · rfl
    · rw [Go.val_bind]
      dsimp only
      rcases c'.queue.put x with (e | q) | _ | _
      · rfl
      · exact pushAddA_eval _ _
      · rfl
      · rfl
    · rfl
    · rfl
  · rw [if_neg h, if_neg h]; exact pushAddA_eval _ _

theorem pushesA_eval (c : Core K) (xs : List K) : (pushesA c xs).eval factorial = pushes c xs := by
  induction xs generalizing c with
  | nil => rfl
  | cons x xs ih =>
    simp only [pushesA, pushes]
    rw [eval_bind, pushA_eval]
    rcases push c x with ⟨c', _ | e⟩ | _ | _
    · exact ih c'
    · rfl
    · rfl
    · rfl

end moment

/-! ## Which factorials -/

/-- With the right answers, all questions are below `L`. -/
def Ask.Within {α : Type} (L : Nat) : Ask α → Prop
  | .done _ => True
  | .ask n k => n < L ∧ (0 ≤ n → (k (table n.toNat)).Within L)

theorem Ask.Within.bind {α β : Type} {L : Nat} {p : Ask α} (hp : p.Within L) {f : α → Ask β}
    (hf : ∀ a, p.eval factorial = .val a → (f a).Within L) : (p.bind f).Within L := by
  induction p with
  | done r =>
    cases r with
    | val a => exact hf a rfl
    | panic => trivial
    | hang => trivial
  | ask n k ih =>
    refine ⟨hp.1, fun hn => ih _ (hp.2 hn) (fun a h => hf a ?_)⟩
    simp only [Ask.eval, factorial, if_neg (not_lt.2 hn)]
    exact h

section moment
variable {K : Type} [Field K] {L : Nat}
open Moment

theorem binomA_within {n k : Int} (hn : n < L) (hk : 0 ≤ k) (hkn : k ≤ n) : (binomA n k).Within L := by
  unfold binomA
  by_cases h : k = 0 ∨ k = n
  · rw [if_pos h]; trivial
  · rw [if_neg h]
    exact ⟨hn, fun _ => ⟨by omega, fun _ => ⟨by omega, fun _ => trivial⟩⟩⟩

theorem coefA_within {k i : Nat} (hk : k < L) (hi : i ≤ k) : (coefA k i : Ask K).Within L :=
  (binomA_within (by omega) (by omega) (by omega)).bind fun _ _ => trivial

theorem sumLoopA_within {term : Nat → Ask K} {n i : Nat} (h : ∀ j, i ≤ j → j < i + n → (term j).Within L) (acc : K) :
    (sumLoopA term n i acc).Within L := by
  induction n generalizing i acc with
  | zero => trivial
  | succ n ih => exact (h i le_rfl (by omega)).bind fun t _ => ih (fun j hj hj' => h j (by omega) (by omega)) _

theorem addEntryA_within (count delta : K) (s : Nat → K) {k : Nat} (hk : k < L) : (addEntryA count delta s k).Within L := by
  unfold addEntryA
  refine sumLoopA_within ?_ _
  intro i hi hi'
  exact (coefA_within hk (by omega)).bind fun _ _ => trivial

theorem decayEntryA_within (d delta : K) (s : Nat → K) {k : Nat} (hk : k < L) : (decayEntryA d delta s k).Within L := by
  unfold decayEntryA
  refine sumLoopA_within ?_ _
  intro i hi hi'
  exact (coefA_within hk (by omega)).bind fun _ _ => trivial

theorem removeEntryA_within (count delta : K) (s : Nat → K) {k : Nat} (hk : k < L) : (removeEntryA count delta s k).Within L := by
  unfold removeEntryA
  refine sumLoopA_within ?_ _
  intro i hi hi'
  exact (coefA_within hk (by omega)).bind fun _ _ => trivial

theorem addLoopA_within (count delta : K) (n : Nat) (hn : n < L) (s : Nat → K) : (addLoopA count delta n s).Within L := by
  induction n using Nat.twoStepInduction generalizing s with
  | zero => trivial
  | one => trivial
  | more k _ ih => exact (addEntryA_within _ _ _ hn).bind fun v _ => ih (by omega) _

theorem decayLoopA_within (d delta : K) (n : Nat) (hn : n < L) (s : Nat → K) : (decayLoopA d delta n s).Within L := by
  induction n using Nat.twoStepInduction generalizing s with
  | zero => trivial
  | one => trivial
  | more k _ ih => exact (decayEntryA_within _ _ _ hn).bind fun v _ => ih (by omega) _

theorem removeLoopA_within (count delta : K) (n k : Nat) (hn : n + k ≤ L) (s : Nat → K) : (removeLoopA count delta n k s).Within L := by
  induction n generalizing k s with
  | zero => trivial
  | succ n ih => exact (removeEntryA_within _ _ _ (by omega)).bind fun v _ => ih _ (by omega) _

theorem removeA_within {c : Core K} (hL : 2 ≤ L) (hc : c.len ≤ L) (x : K) : (removeA c x).Within L := by
  unfold removeA
  simp only
  by_cases h : c.count - 1 > 0
  · rw [if_pos h]; exact (removeLoopA_within _ _ _ _ (by omega) _).bind fun _ _ => trivial
  · rw [if_neg h]; trivial

theorem evictA_within {c : Core K} (hL : 2 ≤ L) (hc : c.len ≤ L) : (evictA c).Within L := by
  unfold evictA
  by_cases h : (c.queue.len : Int) = c.window
  · rw [if_pos h]
    rcases c.queue.get with (e | ⟨t, q⟩) | _ | _
    · trivial
    · exact (removeA_within (c := { c with queue := q }) hL hc t).bind fun _ _ => trivial
    · trivial
    · trivial
  · rw [if_neg h]; trivial

theorem pushAddA_within {c : Core K} (hL : 2 ≤ L) (hc : c.len ≤ L) (x : K) : (pushAddA c x).Within L := by
  unfold pushAddA
  refine Ask.Within.bind ?_ fun _ _ => trivial
  rcases c.decay with _ | d
  · exact (addLoopA_within _ _ _ (by omega) _).bind fun _ _ => trivial
  · exact (decayLoopA_within _ _ _ (by omega) _).bind fun _ _ => trivial

theorem pushA_within {c : Core K} (hL : 2 ≤ L) (hc : c.len ≤ L) (x : K) : (pushA c x).Within L := by
  unfold pushA
  by_cases h : c.window ≠ 0
  · rw [if_pos h]
    refine (evictA_within hL hc).bind fun r hr => ?_
    rcases r with e | c'
    · trivial
    · rw [evictA_eval] at hr
      have hl := (evict_frame hr).1
      dsimp only
      rcases c'.queue.put x with (e | q) | _ | _
      · trivial
      · exact pushAddA_within (c := { c' with queue := q }) hL (by show c'.len ≤ L; omega) x
      · trivial
      · trivial
  · rw [if_neg h]; exact pushAddA_within hL hc x

/-- A core with exponents below `L` needs the first `L` entries. -/
theorem pushesA_within {c : Core K} (hL : 2 ≤ L) (hc : c.len ≤ L) (xs : List K) : (pushesA c xs).Within L := by
  induction xs generalizing c with
  | nil => trivial
  | cons x xs ih =>
    refine (pushA_within hL hc x).bind fun r hr => ?_
    rw [pushA_eval] at hr
    have hl := (push_frame hr).1
    rcases r with ⟨c', _ | e⟩
    · exact ih (c := c') (by simp only at hl; omega)
    · trivial

end moment

/-! ## The table -/

/-- The slice holds factorials. -/
structure Good (t : Tab) (s : Slice) : Prop where
  pos : 0 < s.len
  cap : s.len ≤ (t.arr s.addr).length
  old : s.addr < t.next
  entry : ∀ i, i < s.len → (t.arr s.addr).getD i 0 = table i

theorem Good.init : Good Tab.init Tab.init.hdr where
  pos := by decide
  cap := by decide
  old := by decide
  entry := by
    intro i hi
    have : i < 8 := hi
    have all : ∀ j : Fin 8, (Tab.init.arr Tab.init.hdr.addr).getD j 0 = table j := by decide +kernel
    exact all ⟨i, this⟩

theorem table_succ (n : Nat) (h : 0 < n) : table n = wrap (table (n - 1) * n) := by
  obtain ⟨m, rfl⟩ := Nat.exists_eq_succ_of_ne_zero (by omega : n ≠ 0)
  simp only [table, Nat.succ_eq_add_one, Nat.add_sub_cancel]
  push_cast
  rfl

theorem Good.append_hdr {t : Tab} (h : Good t t.hdr) (next : Int) (spare : List Int) : Good (t.append next spare).1 t.hdr := by
  unfold Tab.append
  by_cases hc : t.hdr.len < (t.arr t.hdr.addr).length
  · rw [if_pos hc]
    refine ⟨h.pos, ?_, h.old, ?_⟩
    · simp only [Function.update_self, List.length_set]; exact h.cap
    · intro i hi
      simp only [Function.update_self]
      rw [← h.entry i hi, List.getD_eq_getElem?_getD, List.getD_eq_getElem?_getD, List.getElem?_set_ne (by omega)]
  · rw [if_neg hc]
    have hne : t.hdr.addr ≠ t.next := by have := h.old; omega
    refine ⟨h.pos, ?_, by have := h.old; simp only; omega, ?_⟩
    · simp only [Function.update_of_ne hne]; exact h.cap
    · intro i hi
      simp only [Function.update_of_ne hne]; exact h.entry i hi

theorem Good.append_new {t : Tab} (h : Good t t.hdr) (spare : List Int) :
    Good (t.append (table t.hdr.len) spare).1 (t.append (table t.hdr.len) spare).2 := by
  unfold Tab.append
  by_cases hc : t.hdr.len < (t.arr t.hdr.addr).length
  · rw [if_pos hc]
    refine ⟨by simp, ?_, h.old, ?_⟩
    · simp only [Function.update_self, List.length_set]; omega
    · intro i hi
      simp only at hi
      simp only [Function.update_self]
      by_cases e : i = t.hdr.len
      · subst e
        rw [List.getD_eq_getElem?_getD, List.getElem?_set_self hc]; rfl
      · rw [← h.entry i (by omega), List.getD_eq_getElem?_getD, List.getD_eq_getElem?_getD, List.getElem?_set_ne (by omega)]
  · rw [if_neg hc]
    have hlen : ((t.arr t.hdr.addr).take t.hdr.len).length = t.hdr.len := by
      rw [List.length_take]; have := h.cap; omega
    refine ⟨by simp, ?_, by simp, ?_⟩
    · simp only [Function.update_self, List.length_append, List.length_cons, hlen]; omega
    · intro i hi
      simp only at hi
      simp only [Function.update_self]
      by_cases e : i = t.hdr.len
      · subst e
        rw [List.getD_eq_getElem?_getD, List.getElem?_append_right (by omega), hlen]
        simp
      · rw [← h.entry i (by omega), List.getD_eq_getElem?_getD, List.getD_eq_getElem?_getD, List.getElem?_append_left (by omega),
          List.getElem?_take_of_lt (by omega)]

theorem append_snd (t : Tab) (next : Int) (spare : List Int) : (t.append next spare).2.len = t.hdr.len + 1 := by
  unfold Tab.append; split <;> rfl

theorem append_fst_hdr (t : Tab) (next : Int) (spare : List Int) : (t.append next spare).1.hdr = t.hdr := by
  unfold Tab.append; split <;> rfl

variable {T α : Type} [DecidableEq T]

theorem World.set_same (w : World T α) (t : T) (l : Local α) : (w.set t l).loc t = l := Function.update_self ..
theorem World.set_ne (w : World T α) {t u : T} (h : u ≠ t) (l : Local α) : (w.set t l).loc u = w.loc u := Function.update_of_ne h ..

/-- What is known about a goroutine, if only `g` may need more than the first `L` entries. -/
def LocOK (g : T) (P : T → Ask α) (L : Nat) (tab : Tab) (t : T) : Local α → Prop
  | .run p => p.eval factorial = (P t).eval factorial ∧ (t ≠ g → p.Within L)
  | .compute n k => t = g ∧ (Ask.ask n k).eval factorial = (P t).eval factorial ∧ (tab.hdr.len : Int) ≤ n
  | .append n k next => t = g ∧ (Ask.ask n k).eval factorial = (P t).eval factorial ∧ next = table tab.hdr.len
  | .store n k s => t = g ∧ (Ask.ask n k).eval factorial = (P t).eval factorial ∧ Good tab s ∧ tab.hdr.len ≤ s.len
  | .read n k => (Ask.ask n k).eval factorial = (P t).eval factorial ∧ n < tab.hdr.len ∧ (t ≠ g → (Ask.ask n k).Within L)

/-- The invariant. -/
structure FInv (g : T) (P : T → Ask α) (L : Nat) (w : World T α) : Prop where
  good : Good w.tab w.tab.hdr
  len : L ≤ w.tab.hdr.len
  loc : ∀ t, LocOK g P L w.tab t (w.loc t)

/-- Only `g` depends on more than the length of the header. -/
theorem LocOK.other {g : T} {P : T → Ask α} {L : Nat} {tab tab' : Tab} {t : T} {l : Local α} (h : LocOK g P L tab t l) (ht : t ≠ g)
    (hl : tab.hdr.len ≤ tab'.hdr.len) : LocOK g P L tab' t l := by
  cases l with
  | run p => exact h
  | compute n k => exact absurd h.1 ht
  | append n k next => exact absurd h.1 ht
  | store n k s => exact absurd h.1 ht
  | read n k => exact ⟨h.1, by have := h.2.1; omega, h.2.2⟩

theorem FInv.set {g : T} {P : T → Ask α} {L : Nat} {w : World T α} (h : FInv g P L w) {t : T} {l : Local α} (hl : LocOK g P L w.tab t l) :
    FInv g P L (w.set t l) where
  good := h.good
  len := h.len
  loc u := by
    by_cases hu : u = t
    · subst hu; rw [World.set_same]; exact hl
    · rw [World.set_ne w hu]; exact h.loc u

theorem FInv.step {g : T} {P : T → Ask α} {L : Nat} {w w' : World T α} (h : FInv g P L w) (hs : Step w w') : FInv g P L w' := by
  cases hs with
  | more t n k e hn =>
    have hl := h.loc t
    rw [e] at hl
    refine h.set ⟨?_, hl.1, hn⟩
    by_contra ht
    have h1 := (hl.2 ht).1
    have h2 := h.len
    omega
  | enough t n k e hn =>
    have hl := h.loc t
    rw [e] at hl
    exact h.set ⟨hl.1, hn, hl.2⟩
  | compute t n k e =>
    have hl := h.loc t
    rw [e] at hl
    refine h.set ⟨hl.1, hl.2.1, ?_⟩
    rw [h.good.entry _ (by have := h.good.pos; omega), ← table_succ _ h.good.pos]
  | append t n k next spare e =>
    have hl := h.loc t
    rw [e] at hl
    obtain ⟨rfl, h1, rfl⟩ := hl
    have hh := append_fst_hdr w.tab (table w.tab.hdr.len) spare
    refine ⟨?_, ?_, fun u => ?_⟩
    · show Good (w.tab.append _ spare).1 (w.tab.append _ spare).1.hdr
      rw [hh]; exact h.good.append_hdr _ _
    · show L ≤ (w.tab.append _ spare).1.hdr.len
      rw [hh]; exact h.len
    · by_cases hu : u = t
      · subst hu
        show LocOK u P L _ u ((w.set u _).loc u)
        rw [World.set_same]
        exact ⟨rfl, h1, h.good.append_new spare, by rw [hh, append_snd]; omega⟩
      · show LocOK t P L _ u ((w.set t _).loc u)
        rw [World.set_ne w hu]
        exact (h.loc u).other hu (by rw [hh])
  | store t n k s e =>
    have hl := h.loc t
    rw [e] at hl
    obtain ⟨rfl, h1, h2, h3⟩ := hl
    refine ⟨⟨h2.pos, h2.cap, h2.old, h2.entry⟩, le_trans h.len h3, fun u => ?_⟩
    by_cases hu : u = t
    · subst hu
      show LocOK u P L _ u ((w.set u _).loc u)
      rw [World.set_same]
      exact ⟨h1, fun hne => absurd rfl hne⟩
    · show LocOK t P L _ u ((w.set t _).loc u)
      rw [World.set_ne w hu]
      exact (h.loc u).other hu h3
  | read t n k e h0 hn =>
    have hl := h.loc t
    rw [e] at hl
    have he : (w.tab.arr w.tab.hdr.addr).getD n.toNat 0 = table n.toNat := h.good.entry _ (by omega)
    refine h.set ⟨?_, fun ht => ?_⟩
    · rw [he, ← hl.1]
      simp only [Ask.eval, factorial, if_neg (not_lt.2 h0)]
    · rw [he]; exact (hl.2.2 ht).2 h0
  | range t n k e hn =>
    have hl := h.loc t
    rw [e] at hl
    have h0 : n < 0 := by
      have := hl.2.1
      by_contra hc
      exact hn ⟨not_lt.1 hc, this⟩
    refine h.set ⟨?_, fun _ => trivial⟩
    rw [← hl.1]
    simp only [Ask.eval, factorial, if_pos h0]

theorem FInv.start {g : T} {P : T → Ask α} {L : Nat} {tab : Tab} (ht : Good tab tab.hdr) (hL : L ≤ tab.hdr.len)
    (hP : ∀ t, t ≠ g → (P t).Within L) : FInv g P L (World.start tab P) :=
  ⟨ht, hL, fun t => ⟨rfl, hP t⟩⟩

theorem FInv.steps {g : T} {P : T → Ask α} {L : Nat} {w w' : World T α} (h : FInv g P L w) (hs : Steps w w') : FInv g P L w' := by
  induction hs with
  | refl => exact h
  | step _ hs ih => exact ih.step hs

/-- If all stay within the table it is never written. -/
theorem tab_steps {P : T → Ask α} {tab : Tab} (ht : Good tab tab.hdr) (hP : ∀ t, (P t).Within tab.hdr.len) {w : World T α}
    (hs : Steps (World.start tab P) w) : w.tab = tab ∧ ∀ t, (∃ p, w.loc t = .run p ∧ p.Within tab.hdr.len) ∨
      ∃ n k, w.loc t = .read n k ∧ (Ask.ask n k).Within tab.hdr.len := by
  generalize hw : World.start tab P = w0 at hs
  induction hs with
  | refl => subst hw; exact ⟨rfl, fun t => .inl ⟨_, rfl, hP t⟩⟩
  | @step w1 w2 _ hs ih =>
    obtain ⟨h1, h2⟩ := ih
    have set : ∀ (t : T) (l : Local α), ((∃ p, l = .run p ∧ p.Within tab.hdr.len) ∨
        ∃ n k, l = .read n k ∧ (Ask.ask n k).Within tab.hdr.len) → ∀ u, (∃ p, (w1.set t l).loc u = .run p ∧ p.Within tab.hdr.len) ∨
      ∃ n k, (w1.set t l).loc u = .read n k ∧ (Ask.ask n k).Within tab.hdr.len := by
      intro t l hl u
      by_cases hu : u = t
      · subst hu; rw [World.set_same]; exact hl
      · rw [World.set_ne w1 hu]; exact h2 u
    cases hs with
    | more t n k e hn =>
      exfalso
      rcases h2 t with ⟨p, hp, hw⟩ | ⟨n', k', hp, hw⟩
      · rw [e] at hp; cases hp
        have := hw.1
        rw [h1] at hn
        omega
      · rw [e] at hp; cases hp
    | enough t n k e hn =>
      refine ⟨h1, set t _ (.inr ⟨n, k, rfl, ?_⟩)⟩
      rcases h2 t with ⟨p, hp, hw⟩ | ⟨n', k', hp, hw⟩
      · rw [e] at hp; cases hp; exact hw
      · rw [e] at hp; cases hp
    | compute t n k e => rcases h2 t with ⟨p, hp, hw⟩ | ⟨n', k', hp, hw⟩ <;> · rw [e] at hp; cases hp
    | append t n k next spare e => rcases h2 t with ⟨p, hp, hw⟩ | ⟨n', k', hp, hw⟩ <;> · rw [e] at hp; cases hp
    | store t n k s e => rcases h2 t with ⟨p, hp, hw⟩ | ⟨n', k', hp, hw⟩ <;> · rw [e] at hp; cases hp
    | read t n k e h0 hn =>
      refine ⟨h1, set t _ (.inl ⟨_, rfl, ?_⟩)⟩
      rcases h2 t with ⟨p, hp, hw⟩ | ⟨n', k', hp, hw⟩
      · rw [e] at hp; cases hp
      · rw [e] at hp; cases hp
        rw [h1, ht.entry _ (by rw [h1] at hn; omega)]
        exact hw.2 h0
    | range t n k e hn => exact ⟨h1, set t _ (.inl ⟨_, rfl, trivial⟩)⟩

/-! ## Running a given schedule -/

/-- One step of `t`, if it has one; a new array gets room for as many entries again. -/
def World.go (w : World T α) (t : T) : World T α :=
  match w.loc t with
  | .run (.done _) => w
  | .run (.ask n k) => if n ≥ w.tab.hdr.len then w.set t (.compute n k) else w.set t (.read n k)
  | .compute n k => w.set t (.append n k (wrap ((w.tab.arr w.tab.hdr.addr).getD (w.tab.hdr.len - 1) 0 * w.tab.hdr.len)))
  | .append n k next =>
    { w.set t (.store n k (w.tab.append next (List.replicate (w.tab.hdr.len - 1) 0)).2) with
      tab := (w.tab.append next (List.replicate (w.tab.hdr.len - 1) 0)).1 }
  | .store n k s => { w.set t (.run (.ask n k)) with tab := { w.tab with hdr := s } }
  | .read n k =>
    if 0 ≤ n ∧ n < w.tab.hdr.len then w.set t (.run (k ((w.tab.arr w.tab.hdr.addr).getD n.toNat 0))) else w.set t (.run (.done .panic))

theorem World.go_steps {w0 w : World T α} (h : Steps w0 w) (t : T) : Steps w0 (w.go t) := by
  unfold World.go
  split
  · exact h
  · rename_i n k e
    by_cases hn : n ≥ w.tab.hdr.len
    · rw [if_pos hn]; exact .step h (.more w t n k e hn)
    · rw [if_neg hn]; exact .step h (.enough w t n k e (not_le.1 hn))
  · rename_i n k e; exact .step h (.compute w t n k e)
  · rename_i n k next e; exact .step h (.append w t n k next _ e)
  · rename_i n k s e; exact .step h (.store w t n k s e)
  · rename_i n k e
    by_cases hn : 0 ≤ n ∧ n < w.tab.hdr.len
    · rw [if_pos hn]; exact .step h (.read w t n k e hn.1 hn.2)
    · rw [if_neg hn]; exact .step h (.range w t n k e hn)

/-- A schedule. -/
def World.exec (w : World T α) (l : List T) : World T α := l.foldl World.go w

theorem World.exec_steps {w0 w : World T α} (h : Steps w0 w) (l : List T) : Steps w0 (w.exec l) := by
  induction l generalizing w with
  | nil => exact h
  | cons t l ih => exact ih (World.go_steps h t)

/-- The result of a goroutine, if it is finished. -/
def World.result (w : World T α) (t : T) : Option (Go α) :=
  match w.loc t with
  | .run (.done r) => some r
  | _ => none

end Verif.Fact
