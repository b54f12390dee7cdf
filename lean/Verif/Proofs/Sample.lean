import Verif.Model.Sample
import Verif.Spec.Sample
import Verif.Proofs.Sim
import Mathlib.Data.List.Induction

/-! # Reservoir sampling: size, provenance, copies -/

namespace Verif.Sample
open Verif Verif.Spec

variable {α : Type}

/-- Invariant of a reservoir that has seen `xs`. -/
structure Inv (k : Int) (xs : List α) (pos : List Nat) (r : Reservoir α) : Prop where
  size : r.size = k
  count : r.count = xs.length
  len : r.sample.length = min xs.length k.toNat
  drawn : DrawnFrom xs r.sample pos
  all : (xs.length : Int) ≤ k → pos = List.range xs.length

theorem Inv.nil (size : Int) : Inv size ([] : List α) [] (new size) :=
  ⟨rfl, rfl, by simp [new], ⟨List.nodup_nil, by simp, rfl⟩, fun _ => rfl⟩

theorem DrawnFrom.snoc {xs s : List α} {pos : List Nat} (h : DrawnFrom xs s pos) (x : α) : DrawnFrom (xs ++ [x]) s pos := by
  refine ⟨h.distinct, fun p hp => by have := h.inside p hp; simp; omega, ?_⟩
  rw [h.values]
  apply List.map_congr_left
  intro p hp
  rw [List.getElem?_append_left (h.inside p hp)]

/-- The next positions. -/
def nextPos (size : Int) (n index : Nat) (pos : List Nat) : List Nat :=
  if (n + 1 : Int) ≤ size then pos ++ [n] else if (index : Int) < size then pos.set index n else pos

theorem Inv.push {size : Int} {xs : List α} {pos : List Nat} {r : Reservoir α} (h : Inv size xs pos r) (x : α) (index : Nat) :
    ∃ r', push r x index = .val r' ∧ Inv size (xs ++ [x]) (nextPos size xs.length index pos) r' := by
  have hpl : pos.length = r.sample.length := by
    have := congrArg List.length h.drawn.values
    simpa using this.symm
  have hx : (xs ++ [x])[xs.length]? = some x := by simp
  have hnew : xs.length ∉ pos := fun c => absurd (h.drawn.inside _ c) (Nat.lt_irrefl _)
  unfold Sample.push nextPos
  simp only [h.count, h.size]
  push_cast
  by_cases c1 : (xs.length : Int) + 1 ≤ size
  · rw [if_pos c1, if_pos c1]
    refine ⟨_, rfl, rfl, by simp, ?_, ⟨?_, ?_, ?_⟩, ?_⟩
    · simp only [List.length_append, List.length_singleton, h.len]; omega
    · rw [List.nodup_append]; refine ⟨h.drawn.distinct, by simp, ?_⟩
      intro a ha b hb e
      simp at hb; subst hb; subst e; exact hnew ha
    · intro p hp
      simp only [List.mem_append, List.mem_singleton] at hp
      rcases hp with hp | rfl
      · have := h.drawn.inside p hp; simp; omega
      · simp
    · simp only [List.map_append, (DrawnFrom.snoc h.drawn x).values, List.map_cons, List.map_nil, hx]
    · intro _
      rw [h.all (by omega)]
      simp [List.range_succ]
  · rw [if_neg c1, if_neg c1]
    have hl : r.sample.length = size.toNat := by rw [h.len]; omega
    by_cases c2 : (index : Int) < size
    · have c3 : index < r.sample.length := by omega
      rw [if_pos c2, if_pos c2, if_pos c3]
      refine ⟨_, rfl, rfl, by simp, ?_, ⟨?_, ?_, ?_⟩, ?_⟩
      · simp only [List.length_set, List.length_append, List.length_singleton, h.len]; omega
      · exact h.drawn.distinct.set (fun c => hnew c)
      · intro p hp
        rcases List.mem_or_eq_of_mem_set hp with hp | rfl
        · have := h.drawn.inside p hp; simp; omega
        · simp
      · simp only [List.map_set, (DrawnFrom.snoc h.drawn x).values, hx]
      · intro c; simp at c; omega
    · rw [if_neg c2, if_neg c2]
      refine ⟨_, rfl, rfl, by simp, ?_, DrawnFrom.snoc h.drawn x, ?_⟩
      · simp only [List.length_append, List.length_singleton, h.len]; omega
      · intro c; simp at c; omega

/-- The positions of the sample; they do not depend on the values. -/
def positions (draw : Nat → Nat) (size : Int) : Nat → List Nat
  | 0 => []
  | n + 1 => nextPos size n (draw (n + 1)) (positions draw size n)

theorem run_inv (draw : Nat → Nat) (size : Int) (xs : List α) :
    ∃ r, run draw size xs = .val r ∧ Inv size xs (positions draw size xs.length) r := by
  induction xs using List.reverseRecOn with
  | nil => exact ⟨_, rfl, Inv.nil size⟩
  | append_singleton xs x ih =>
    obtain ⟨r, e, h⟩ := ih
    obtain ⟨r', e', h'⟩ := h.push x (draw (r.count + 1))
    refine ⟨r', ?_, ?_⟩
    · unfold run at e ⊢
      rw [Go.runOps_append, e]
      simp [Go.runOps, e']
    · rw [h.count] at h'
      simpa [positions] using h'

/-! ## Memory -/

/-- Contents of the reservoir's slice. -/
def MRes.contents (r : MRes α) : List α := (r.mem.arr r.addr).take r.len

/-- Separation: the reservoir's array and the slices given away are all different. -/
structure Sep (c : Client α) : Prop where
  addr : c.res.addr < c.res.mem.next
  len : c.res.len ≤ (c.res.mem.arr c.res.addr).length
  out : ∀ a ∈ c.out, a < c.res.mem.next
  nodup : c.out.Nodup
  apart : c.res.addr ∉ c.out

/-- The client state, with slices as values. -/
structure Abs (c : Client α) (r : Reservoir α) (given : List (List α)) : Prop where
  sep : Sep c
  size : c.res.size = r.size
  count : c.res.count = r.count
  sample : c.res.contents = r.sample
  given : c.out.map c.res.mem.arr = given

theorem contents_length {c : Client α} (h : Sep c) : c.res.contents.length = c.res.len := by
  simp [MRes.contents, h.len]

theorem map_update {l : List Nat} {f : Nat → List α} {a : Nat} {v : List α} (h : a ∉ l) :
    l.map (Function.update f a v) = l.map f := by
  apply List.map_congr_left
  intro b hb
  have hne : b ≠ a := fun e => h (e ▸ hb)
  exact Function.update_of_ne hne _ _

theorem append_abs {c : Client α} {r : Reservoir α} {given : List (List α)} (h : Abs c r given) (x : α) (spare : List α) :
    Abs { c with res := c.res.append x spare } { r with sample := r.sample ++ [x] } given := by
  obtain ⟨⟨h1, h2, h3, h4, h5⟩, hs, hc, hsm, hg⟩ := h
  obtain ⟨⟨size, addr, len, count, mem⟩, out⟩ := c
  simp only at h1 h2 h3 h4 h5 hs hc hsm hg
  unfold MRes.append
  simp only [MRes.contents] at hsm
  by_cases c1 : len < (mem.arr addr).length
  · simp only [c1, if_true, Mem.set]
    refine ⟨⟨h1, ?_, h3, h4, h5⟩, hs, hc, ?_, ?_⟩
    · simp; omega
    · simp only [MRes.contents, Function.update_self]
      rw [List.take_set, List.take_succ_eq_append_getElem c1, List.set_append_right _ _ (by simp; omega), ← hsm]
      simp [Nat.min_eq_left h2]
    · simp only; rw [map_update h5]; exact hg
  · have e : len = (mem.arr addr).length := by omega
    simp only [c1, if_false, Mem.alloc]
    refine ⟨⟨by simp, ?_, ?_, h4, ?_⟩, hs, hc, ?_, ?_⟩
    · simp; omega
    · intro a ha; have := h3 a ha; simp; omega
    · intro c; have := h3 _ c; simp at this
    · simp only [MRes.contents, Function.update_self]
      rw [← hsm, List.take_append]
      simp [e, List.take_of_length_le]
    · simp only; rw [map_update (fun c => by have := h3 _ c; simp at this)]; exact hg

theorem push_abs {c : Client α} {r : Reservoir α} {given : List (List α)} (h : Abs c r given) (x : α) (index : Nat) (spare : List α) :
    (∃ r' c', push r x index = .val r' ∧ c.step (.push x index spare) = .val c' ∧ Abs c' r' given) ∨
    (push r x index = .panic ∧ c.step (.push x index spare) = .panic) := by
  have hl := contents_length h.sep
  unfold push
  simp only [Client.step, MRes.push]
  rw [h.size, h.count]
  have h' : Abs { c with res := { c.res with count := r.count + 1 } } { r with count := r.count + 1 } given :=
    ⟨⟨h.sep.addr, h.sep.len, h.sep.out, h.sep.nodup, h.sep.apart⟩, h.size, rfl, h.sample, h.given⟩
  by_cases c1 : ((r.count + 1 : Nat) : Int) ≤ r.size
  · have c1' : ((r.count + 1 : Nat) : Int) ≤ c.res.size := by rw [h.size]; exact c1
    refine Or.inl ⟨_, _, by rw [if_pos c1], by rw [if_pos c1]; rfl, ?_⟩
    have := append_abs h' x spare
    simpa [← h.size] using this
  · rw [if_neg c1, if_neg c1]
    by_cases c2 : (index : Int) < r.size
    · rw [if_pos c2, if_pos c2]
      rw [h.sample] at hl
      by_cases c3 : index < r.sample.length
      · refine Or.inl ⟨_, _, by rw [if_pos c3], by rw [if_pos (by omega)]; rfl, ?_⟩
        obtain ⟨⟨h1, h2, h3, h4, h5⟩, hs, hc, hsm, hg⟩ := h
        refine ⟨⟨h1, ?_, h3, h4, h5⟩, rfl, rfl, ?_, ?_⟩
        · simpa [Mem.set] using h2
        · simp only [MRes.contents, Mem.set, Function.update_self] at hsm ⊢
          rw [List.take_set, hsm]
        · simp only [Mem.set]; rw [map_update h5]; exact hg
      · exact Or.inr ⟨by rw [if_neg c3], by rw [if_neg (by omega)]; rfl⟩
    · rw [if_neg c2, if_neg c2]
      exact Or.inl ⟨_, _, rfl, rfl, by simpa [← h.size] using h'⟩

theorem sample_abs {c : Client α} {r : Reservoir α} {given : List (List α)} (h : Abs c r given) :
    ∃ c', c.step .sample = .val c' ∧ Abs c' r (given ++ [r.sample]) := by
  refine ⟨_, rfl, ?_⟩
  obtain ⟨⟨h1, h2, h3, h4, h5⟩, hs, hc, hsm, hg⟩ := h
  have hne : c.res.addr ≠ c.res.mem.next := Nat.ne_of_lt h1
  have hno : c.res.mem.next ∉ c.out := fun c => by have := h3 _ c; omega
  refine ⟨⟨?_, ?_, ?_, ?_, ?_⟩, hs, hc, ?_, ?_⟩
  · simp [MRes.sample, Mem.alloc]; omega
  · simp only [MRes.sample, Mem.alloc]; rw [Function.update_of_ne hne]; exact h2
  · intro a ha
    simp only [MRes.sample, Mem.alloc, List.mem_append, List.mem_singleton] at ha ⊢
    rcases ha with ha | rfl
    · have := h3 a ha; omega
    · omega
  · simp only [MRes.sample, Mem.alloc]
    rw [List.nodup_append]
    refine ⟨h4, by simp, ?_⟩
    intro a ha b hb e
    simp at hb; subst hb; subst e; exact hno ha
  · simp only [MRes.sample, Mem.alloc, List.mem_append, List.mem_singleton, not_or]
    exact ⟨h5, hne⟩
  · simp only [MRes.contents, MRes.sample, Mem.alloc] at hsm ⊢
    rw [Function.update_of_ne hne]; exact hsm
  · simp only [MRes.sample, Mem.alloc, List.map_append, List.map_cons, List.map_nil, Function.update_self]
    rw [map_update hno, hg]
    rw [MRes.contents] at hsm
    rw [hsm]

theorem write_abs {c : Client α} {r : Reservoir α} {given : List (List α)} (h : Abs c r given) (i j : Nat) (x : α) :
    (∃ l c', given[i]? = some l ∧ j < l.length ∧ c.step (.write i j x) = .val c' ∧ Abs c' r (given.set i (l.set j x))) ∨
    ((∀ l, given[i]? = some l → ¬ j < l.length) ∧ c.step (.write i j x) = .panic) := by
  obtain ⟨⟨h1, h2, h3, h4, h5⟩, hs, hc, hsm, rfl⟩ := h
  simp only [Client.step]
  rw [List.getElem?_map]
  cases e : c.out[i]? with
  | none => exact Or.inr ⟨by simp, rfl⟩
  | some a =>
    simp only [Option.map_some]
    have ha : a ∈ c.out := List.mem_of_getElem? e
    have hne : c.res.addr ≠ a := fun c => h5 (c ▸ ha)
    by_cases c1 : j < (c.res.mem.arr a).length
    · refine Or.inl ⟨_, { c with res := { c.res with mem := c.res.mem.set a ((c.res.mem.arr a).set j x) } }, rfl, c1,
        by rw [if_pos c1], ⟨h1, ?_, h3, h4, h5⟩, hs, hc, ?_, ?_⟩
      · simp only [Mem.set]; rw [Function.update_of_ne hne]; exact h2
      · simp only [MRes.contents, Mem.set] at hsm ⊢
        rw [Function.update_of_ne hne]; exact hsm
      · simp only [Mem.set]
        apply List.ext_getElem?
        intro k
        rw [List.getElem?_map, List.getElem?_set, List.getElem?_map]
        by_cases hk : i = k
        · subst hk
          have hi : i < c.out.length := (List.getElem?_eq_some_iff.1 e).1
          rw [if_pos rfl, if_pos (by simpa using hi), e]
          simp
        · simp only [hk, if_false]
          cases e2 : c.out[k]? with
          | none => rfl
          | some b =>
            have hb : b ≠ a := by
              intro hba
              subst hba
              obtain ⟨hi, e⟩ := List.getElem?_eq_some_iff.1 e
              obtain ⟨hk', e2⟩ := List.getElem?_eq_some_iff.1 e2
              exact hk ((List.Nodup.getElem_inj_iff h4).1 (e.trans e2.symm))
            simp [Function.update_of_ne hb]
    · exact Or.inr ⟨by intro l hl; cases hl; exact c1, by rw [if_neg c1]⟩

/-- One client operation when slices are values: the pushes are those of the pure reservoir, a sample is a list, a write changes one list. -/
def valueStep (p : Reservoir α × List (List α)) : SOp α → Go (Reservoir α × List (List α))
  | .push x index _ => do
    let r ← push p.1 x index
    pure (r, p.2)
  | .sample => .val (p.1, p.2 ++ [p.1.sample])
  | .write i j x =>
    match p.2[i]? with
    | none => .panic
    | some l => if j < l.length then .val (p.1, p.2.set i (l.set j x)) else .panic

theorem step_abs {c : Client α} {p : Reservoir α × List (List α)} (h : Abs c p.1 p.2) (o : SOp α) :
    GoR (fun c p => Abs c p.1 p.2) (c.step o) (valueStep p o) := by
  cases o with
  | push x index spare =>
    rcases push_abs h x index spare with ⟨r', c', e, e', h'⟩ | ⟨e, e'⟩
    · rw [e']; simp only [valueStep, e]; exact h'
    · rw [e']; simp only [valueStep, e]; trivial
  | sample =>
    obtain ⟨c', e, h'⟩ := sample_abs h
    rw [e]; exact h'
  | write i j x =>
    rcases write_abs h i j x with ⟨l, c', e, hj, e', h'⟩ | ⟨e, e'⟩
    · rw [e']; simp only [valueStep, e, if_pos hj]; exact h'
    · rw [e']; simp only [valueStep]
      cases e2 : p.2[i]? with
      | none => trivial
      | some l => simp only [if_neg (e l e2)]; trivial

theorem abs_new (size : Int) : Abs (⟨MRes.new size, []⟩ : Client α) (new size) [] :=
  ⟨⟨by simp [MRes.new], by simp [MRes.new], by simp, List.nodup_nil, by simp⟩, rfl, rfl, by simp [MRes.contents, MRes.new, new], rfl⟩

theorem run_abs (ops : List (SOp α)) : ∀ (c : Client α) (p : Reservoir α × List (List α)), Abs c p.1 p.2 →
    GoR (fun c p => Abs c p.1 p.2) (Go.runOps Client.step c ops) (Go.runOps valueStep p ops) := by
  induction ops with
  | nil => intro c p h; exact h
  | cons o ops ih => intro c p h; exact GoR.bind (step_abs h o) (fun a b hab => ih a b hab)

end Verif.Sample
