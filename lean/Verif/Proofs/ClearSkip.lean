import Verif.Proofs.Sim
import Verif.Proofs.SkipRun

/-! # `Clear` of the skip list: node addresses do not matter

A cleared list keeps allocating above its garbage. Whenever a new list (whose generator continues where the old one is) returns, the cleared
list returns the same, up to adding a constant `k` to every address but the head's. -/

set_option linter.unusedSectionVars false

namespace Verif
/-- If the second computation returns, so does the first, with a related value. -/
def GoS {α β : Type} (R : α → β → Prop) (x : Go α) (y : Go β) : Prop := ∀ b, y = .val b → ∃ a, x = .val a ∧ R a b

theorem GoS.bind {α β γ δ : Type} {R : α → β → Prop} {S : γ → δ → Prop} {x : Go α} {y : Go β} {f : α → Go γ} {g : β → Go δ}
    (h : GoS R x y) (hf : ∀ a b, R a b → GoS S (f a) (g b)) : GoS S (x >>= f) (y >>= g) := by
  intro d hd
  cases y with
  | panic => simp at hd
  | hang => simp at hd
  | val b =>
    obtain ⟨a, rfl, hr⟩ := h b rfl
    exact hf a b hr d hd

theorem GoS.val {α β : Type} {R : α → β → Prop} {a : α} {b : β} (h : R a b) : GoS R (.val a) (.val b) := by
  intro b' e; cases e; exact ⟨a, rfl, h⟩

theorem GoS.panic {α β : Type} {R : α → β → Prop} {x : Go α} : GoS R x (Go.panic : Go β) := fun _ e => by simp at e

theorem GoS.hang {α β : Type} {R : α → β → Prop} {x : Go α} : GoS R x (Go.hang : Go β) := fun _ e => by simp at e

theorem GoS.runOps {S A : Type} {step step' : S → A → Go S} {R : S → S → Prop}
    (h : ∀ s s' a, R s s' → GoS R (step s a) (step' s' a)) : ∀ (l : List A) (s s' : S), R s s' → GoS R (Go.runOps step s l) (Go.runOps step' s' l) := by
  intro l
  induction l with
  | nil => intro s s' r; exact GoS.val r
  | cons a l ih =>
    intro s s' r b hb
    simp only [Go.runOps] at hb ⊢
    cases e : step' s' a with
    | panic => rw [e] at hb; simp at hb
    | hang => rw [e] at hb; simp at hb
    | val t' =>
      rw [e] at hb
      obtain ⟨t, e2, r2⟩ := h s s' a r t' e
      rw [e2]
      exact ih t t' r2 b hb
end Verif

namespace Verif.Skip
open Verif SkipList

variable {F : Type}

/-- Where an address of the new list is in the cleared one. -/
def sh (k x : Nat) : Nat := if x = 0 then 0 else x + k

theorem sh_inj {k x y : Nat} : sh k x = sh k y ↔ x = y := by
  unfold sh; split <;> split <;> omega

/-- Nodes equal up to addresses, pointing below `n`. -/
structure NR (k n : Nat) (a b : SNode F) : Prop where
  level : a.level = b.level
  width : a.width = b.width
  val : a.val = b.val
  next : ∀ i, a.next i = (b.next i).map (sh k)
  lt : ∀ i y, b.next i = some y → y < n

/-- Lists equal up to addresses. -/
structure SR (k : Nat) (s s' : SkipList F) : Prop where
  alloc : s.alloc = s'.alloc + k
  pos : 0 < s'.alloc
  max : s.maxLevel = s'.maxLevel
  length : s.length = s'.length
  draws : ∀ j, s.draws (s.drawn + j) = s'.draws (s'.drawn + j)
  node : ∀ x, x < s'.alloc → NR k s'.alloc (s.store (sh k x)) (s'.store x)

variable {k : Nat} {s s' : SkipList F}

theorem SR.upd (r : SR k s s') {a : Nat} {p p' : SNode F} (h : NR k s'.alloc p p') : SR k (s.upd (sh k a) p) (s'.upd a p') := by
  refine ⟨r.alloc, r.pos, r.max, r.length, r.draws, ?_⟩
  intro x hx
  simp only [SkipList.upd]
  by_cases e : x = a
  · subst e; simpa using h
  · rw [Function.update_of_ne (fun c => e (sh_inj.1 c)), Function.update_of_ne e]
    exact r.node x hx

theorem nextAt_sim (r : SR k s s') {a : Nat} (ha : a < s'.alloc) (i : Nat) :
    GoS (fun x y => x = y.map (sh k) ∧ ∀ z, y = some z → z < s'.alloc) (s.nextAt (sh k a) i) (s'.nextAt a i) := by
  have n := r.node a ha
  unfold nextAt
  rw [n.level]
  split
  · exact GoS.val ⟨n.next i, fun z hz => n.lt i z hz⟩
  · exact GoS.panic

theorem widthAt_sim (r : SR k s s') {a : Nat} (ha : a < s'.alloc) (i : Nat) : GoS Eq (s.widthAt (sh k a) i) (s'.widthAt a i) := by
  have n := r.node a ha
  unfold widthAt
  rw [n.level, n.width]
  split
  · exact GoS.val rfl
  · exact GoS.panic

theorem setNext_sim (r : SR k s s') {a : Nat} (ha : a < s'.alloc) (i : Nat) {p p' : Option Nat} (hp : p = p'.map (sh k))
    (hl : ∀ z, p' = some z → z < s'.alloc) :
    GoS (fun t t' => SR k t t' ∧ t'.alloc = s'.alloc) (s.setNext (sh k a) i p) (s'.setNext a i p') := by
  have n := r.node a ha
  unfold setNext
  rw [show (s.store (sh k a)).level = (s'.store a).level from n.level]
  split
  · refine GoS.val ⟨r.upd ⟨n.level, n.width, n.val, ?_, ?_⟩, rfl⟩
    · intro j
      by_cases e : j = i
      · subst e; simpa using hp
      · simp only [Function.update_of_ne e]; exact n.next j
    · intro j y
      by_cases e : j = i
      · subst e; simpa using hl y
      · simp only [Function.update_of_ne e]; exact n.lt j y
  · exact GoS.panic

theorem addWidth_sim (r : SR k s s') {a : Nat} (ha : a < s'.alloc) (i : Nat) (d : Int) :
    GoS (fun t t' => SR k t t' ∧ t'.alloc = s'.alloc) (s.addWidth (sh k a) i d) (s'.addWidth a i d) := by
  have n := r.node a ha
  unfold addWidth
  rw [show (s.store (sh k a)).level = (s'.store a).level from n.level]
  split
  · exact GoS.val ⟨r.upd ⟨n.level, by simp only [n.width], n.val, n.next, n.lt⟩, rfl⟩
  · exact GoS.panic

theorem idx_sim {n : Nat} {l l' : List Nat} (h : l = l'.map (sh k)) (hl : ∀ x ∈ l', x < n) (i : Nat) :
    GoS (fun x y => x = sh k y ∧ y < n) (idx l i) (idx l' i) := by
  unfold idx
  rw [h, List.getElem?_map]
  cases e : l'[i]? with
  | none => exact GoS.panic
  | some a => exact GoS.val ⟨rfl, hl a (List.mem_of_getElem? e)⟩

variable [GoOrd F]

theorem valLt_sim (r : SR k s s') {a : Nat} (ha : a < s'.alloc) (x : F) : s.valLt (sh k a) x = s'.valLt a x := by
  unfold valLt; rw [(r.node a ha).val]

theorem valEq_sim (r : SR k s s') {a : Nat} (ha : a < s'.alloc) (x : F) : s.valEq (sh k a) x = s'.valEq a x := by
  unfold valEq; rw [(r.node a ha).val]

theorem equals_sim (r : SR k s s') {p q : Option Nat} (hp : ∀ z, p = some z → z < s'.alloc) (hq : ∀ z, q = some z → z < s'.alloc) :
    s.equals (p.map (sh k)) (q.map (sh k)) = s'.equals p q := by
  cases p with
  | none => cases q <;> rfl
  | some a =>
    cases q with
    | none => rfl
    | some b =>
      simp only [Option.map_some, equals]
      rw [(r.node a (hp a rfl)).val, (r.node b (hq b rfl)).val]

theorem walk_sim (r : SR k s s') (x : F) (i : Nat) : ∀ (f' f : Nat), f' ≤ f → ∀ p, p < s'.alloc →
    GoS (fun a b => a = sh k b ∧ b < s'.alloc) (s.walk x i f (sh k p)) (s'.walk x i f' p) := by
  intro f'
  induction f' with
  | zero => intros; exact GoS.hang
  | succ f' ih =>
    intro f hf p hp
    obtain ⟨f, rfl⟩ : ∃ g, f = g + 1 := ⟨f - 1, by omega⟩
    simp only [walk]
    refine (nextAt_sim r hp i).bind ?_
    rintro _ y ⟨rfl, hy⟩
    cases y with
    | none => exact GoS.val ⟨rfl, hp⟩
    | some n =>
      simp only [Option.map_some]
      rw [valLt_sim r (hy n rfl)]
      split
      · exact ih f (by omega) n (hy n rfl)
      · exact GoS.val ⟨rfl, hp⟩

theorem prevsDown_sim (r : SR k s s') (x : F) : ∀ (i p : Nat), p < s'.alloc →
    GoS (fun l l' => l = l'.map (sh k) ∧ ∀ y ∈ l', y < s'.alloc) (s.prevsDown x i (sh k p)) (s'.prevsDown x i p) := by
  intro i
  induction i with
  | zero => intro p _; exact GoS.val ⟨rfl, by simp⟩
  | succ i ih =>
    intro p hp
    simp only [prevsDown]
    refine (walk_sim r x i _ _ (by rw [r.alloc]; omega) p hp).bind ?_
    rintro _ b ⟨rfl, hb⟩
    refine (ih b hb).bind ?_
    rintro _ l' ⟨rfl, hl⟩
    refine GoS.val ⟨by simp, ?_⟩
    intro y hy
    simp only [List.mem_append, List.mem_singleton] at hy
    rcases hy with hy | rfl
    · exact hl y hy
    · exact hb

theorem getPrevs_sim (r : SR k s s') (x : F) :
    GoS (fun l l' => l = l'.map (sh k) ∧ ∀ y ∈ l', y < s'.alloc) (s.getPrevs x) (s'.getPrevs x) := by
  unfold getPrevs
  rw [r.max]
  exact prevsDown_sim r x _ 0 r.pos

theorem randLevel_sim (r : SR k s s') : s.randLevel = s'.randLevel := by
  unfold randLevel
  have := r.draws 0
  simp only [Nat.add_zero] at this
  rw [r.max, this]

/-- Lists related, with the allocator of the second fixed. -/
def SA (k n : Nat) (s s' : SkipList F) : Prop := SR k s s' ∧ s'.alloc = n

theorem linkAt_sim {n : Nat} {l l' : List Nat} (hl : l = l'.map (sh k)) {m : Nat} (hb : ∀ x ∈ l', x < m) (hn : n < m)
    (s s' : SkipList F) (i : Nat) (r : SA k m s s') : GoS (SA k m) (linkAt (sh k n) l s i) (linkAt n l' s' i) := by
  obtain ⟨r, rfl⟩ := r
  unfold linkAt
  refine (idx_sim hl hb i).bind ?_
  rintro _ p ⟨rfl, hp⟩
  refine (nextAt_sim r hp i).bind ?_
  rintro _ q ⟨rfl, hq⟩
  refine (setNext_sim r hn i rfl hq).bind ?_
  rintro t t' ⟨r2, e⟩
  have := setNext_sim r2 (by rw [e]; exact hp) i (p := some (sh k n)) (p' := some n) rfl (by rintro z hz; cases hz; rw [e]; exact hn)
  intro b hb'
  obtain ⟨a, h1, h2, h3⟩ := this b hb'
  exact ⟨a, h1, h2, h3.trans e⟩

theorem bumpAt_sim {l l' : List Nat} (hl : l = l'.map (sh k)) {m : Nat} (hb : ∀ x ∈ l', x < m)
    (s s' : SkipList F) (i : Nat) (r : SA k m s s') : GoS (SA k m) (bumpAt l s i) (bumpAt l' s' i) := by
  obtain ⟨r, rfl⟩ := r
  unfold bumpAt
  refine (idx_sim hl hb i).bind ?_
  rintro _ p ⟨rfl, hp⟩
  exact addWidth_sim r hp i 1

theorem sumWidth_sim (r : SR k s s') {t : Option Nat} (ht : ∀ z, t = some z → z < s'.alloc) (j : Nat) : ∀ (f' f : Nat), f' ≤ f →
    ∀ c, (∀ z, c = some z → z < s'.alloc) → ∀ acc,
    GoS Eq (s.sumWidth (t.map (sh k)) j f (c.map (sh k)) acc) (s'.sumWidth t j f' c acc) := by
  intro f'
  induction f' with
  | zero => intros; exact GoS.hang
  | succ f' ih =>
    intro f hf c hc acc
    obtain ⟨f, rfl⟩ : ∃ g, f = g + 1 := ⟨f - 1, by omega⟩
    simp only [sumWidth]
    rw [equals_sim r hc ht]
    split
    · exact GoS.val rfl
    · cases c with
      | none => exact GoS.panic
      | some a =>
        simp only [Option.map_some]
        refine (widthAt_sim r (hc a rfl) j).bind ?_
        rintro w _ rfl
        refine (nextAt_sim r (hc a rfl) j).bind ?_
        rintro _ y ⟨rfl, hy⟩
        exact ih f (by omega) y hy _

theorem widthAtLevel_sim {n : Nat} {l l' : List Nat} (hl : l = l'.map (sh k)) {m : Nat} (hb : ∀ x ∈ l', x < m) (hn : n < m)
    (s s' : SkipList F) (i : Nat) (r : SA k m s s') : GoS (SA k m) (widthAtLevel (sh k n) l s i) (widthAtLevel n l' s' i) := by
  obtain ⟨r, rfl⟩ := r
  unfold widthAtLevel
  refine (nextAt_sim r hn i).bind ?_
  rintro _ t ⟨rfl, ht⟩
  refine (sumWidth_sim r ht (i - 1) _ _ (by rw [r.alloc]; omega) (some n) (by rintro z hz; cases hz; exact hn) 0).bind ?_
  rintro w _ rfl
  refine (addWidth_sim r hn i w).bind ?_
  rintro u u' ⟨r2, e⟩
  refine (idx_sim hl hb i).bind ?_
  rintro _ p ⟨rfl, hp⟩
  refine (widthAt_sim r2 (by rw [e]; exact hn) i).bind ?_
  rintro wn _ rfl
  have := addWidth_sim r2 (by rw [e]; exact hp) i (-wn)
  intro b hb'
  obtain ⟨a, h1, h2, h3⟩ := this b hb'
  exact ⟨a, h1, h2, h3.trans e⟩

theorem add_sim (r : SR k s s') (x : F) : GoS (SR k) (s.add x) (s'.add x) := by
  unfold add
  refine (getPrevs_sim r x).bind ?_
  rintro _ l' ⟨rfl, hb⟩
  simp only [randLevel_sim r]
  have hn : sh k s'.alloc = s.alloc := by
    have := r.pos
    have := r.alloc
    unfold sh; split <;> omega
  have hb' : ∀ y ∈ l', y < s'.alloc + 1 := fun y hy => Nat.lt_succ_of_lt (hb y hy)
  have hl : s'.alloc < s'.alloc + 1 := Nat.lt_succ_self _
  have r0 : SA k (s'.alloc + 1)
      { s.upd s.alloc ⟨s'.randLevel, fun _ => none, fun _ => 0, some x⟩ with alloc := s.alloc + 1, drawn := s.drawn + 1 }
      { s'.upd s'.alloc ⟨s'.randLevel, fun _ => none, fun _ => 0, some x⟩ with alloc := s'.alloc + 1, drawn := s'.drawn + 1 } := by
    refine ⟨⟨?_, Nat.succ_pos _, r.max, r.length, ?_, ?_⟩, rfl⟩
    · simp only [r.alloc]; omega
    · intro j
      have := r.draws (1 + j)
      simp only [SkipList.upd, Nat.add_assoc]; exact this
    · intro y hy
      simp only at hy
      simp only [SkipList.upd]
      by_cases e : y = s'.alloc
      · subst e
        rw [hn]
        simp only [Function.update_self]
        exact ⟨rfl, rfl, rfl, fun _ => rfl, fun i z hz => by simp at hz⟩
      · have n := r.node y (by omega)
        rw [Function.update_of_ne (fun c => e (sh_inj.1 (c.trans hn.symm))), Function.update_of_ne e]
        exact ⟨n.level, n.width, n.val, n.next, fun i z hz => Nat.lt_succ_of_lt (n.lt i z hz)⟩
  have c1 := GoS.runOps (fun t t' i h => linkAt_sim (k := k) (n := s'.alloc) rfl hb' hl t t' i h) (List.range s'.randLevel) _ _ r0
  rw [hn] at c1
  refine c1.bind ?_
  rintro t t' ⟨r1, e1⟩
  have c2 := addWidth_sim r1 (a := s'.alloc) (by rw [e1]; exact hl) 0 1
  rw [hn] at c2
  refine c2.bind ?_
  rintro u u' ⟨r2, e2⟩
  have r2' : SA k (s'.alloc + 1) u u' := ⟨r2, e2.trans e1⟩
  rw [r2.max]
  refine (GoS.runOps (fun t t' i h => bumpAt_sim (k := k) rfl hb' t t' i h) (from1 u'.maxLevel) _ _ r2').bind ?_
  intro v v' r3
  have c4 := GoS.runOps (fun t t' i h => widthAtLevel_sim (k := k) (n := s'.alloc) rfl hb' hl t t' i h) (from1 s'.randLevel) _ _ r3
  rw [hn] at c4
  refine c4.bind ?_
  rintro w w' ⟨r4, -⟩
  exact GoS.val ⟨r4.alloc, r4.pos, r4.max, by simp only [r4.length], r4.draws, r4.node⟩

theorem unlinkAt_sim {n : Nat} {l l' : List Nat} (hl : l = l'.map (sh k)) {m : Nat} (hb : ∀ x ∈ l', x < m) (hn : n < m)
    (s s' : SkipList F) (i : Nat) (r : SA k m s s') : GoS (SA k m) (unlinkAt (sh k n) l s i) (unlinkAt n l' s' i) := by
  obtain ⟨r, rfl⟩ := r
  unfold unlinkAt
  refine (idx_sim hl hb i).bind ?_
  rintro _ p ⟨rfl, hp⟩
  rw [show (s.store (sh k n)).level = (s'.store n).level from (r.node n hn).level]
  split
  · refine (nextAt_sim r hn i).bind ?_
    rintro _ q ⟨rfl, hq⟩
    refine (setNext_sim r hp i rfl hq).bind ?_
    rintro t t' ⟨r2, e⟩
    refine (widthAt_sim r2 (by rw [e]; exact hn) i).bind ?_
    rintro w _ rfl
    have := addWidth_sim r2 (by rw [e]; exact hp) i (w - 1)
    intro b hb'
    obtain ⟨a, h1, h2, h3⟩ := this b hb'
    exact ⟨a, h1, h2, h3.trans e⟩
  · exact addWidth_sim r hp i (-1)

theorem remove_sim (r : SR k s s') (x : F) : GoS (SR k) (s.remove x) (s'.remove x) := by
  unfold remove
  refine (getPrevs_sim r x).bind ?_
  rintro _ l' ⟨rfl, hb⟩
  refine (idx_sim rfl hb 0).bind ?_
  rintro _ p ⟨rfl, hp⟩
  refine (nextAt_sim r hp 0).bind ?_
  rintro _ q ⟨rfl, hq⟩
  cases q with
  | none => exact GoS.val r
  | some n =>
    simp only [Option.map_some]
    rw [valEq_sim r (hq n rfl)]
    split
    · rw [List.length_map]
      refine (GoS.runOps (fun t t' i h => unlinkAt_sim (k := k) rfl hb (hq n rfl) t t' i h) (List.range l'.length) _ _ ⟨r, rfl⟩).bind ?_
      rintro t t' ⟨r2, -⟩
      exact GoS.val ⟨r2.alloc, r2.pos, r2.max, by simp only [r2.length], r2.draws, r2.node⟩
    · exact GoS.val r

theorem clear_sim (r : SR k s s') : SR k s.clear s'.clear := by
  have n := r.node 0 r.pos
  have h0 : sh k 0 = 0 := rfl
  rw [h0] at n
  have h := r.upd (a := 0) (p := { s.store 0 with next := fun _ => none, width := fun _ => 1, level := s.maxLevel })
    (p' := { s'.store 0 with next := fun _ => none, width := fun _ => 1, level := s'.maxLevel })
    ⟨r.max, rfl, n.val, fun _ => rfl, fun i z hz => by simp at hz⟩
  rw [h0] at h
  exact ⟨h.alloc, h.pos, h.max, rfl, h.draws, h.node⟩

theorem step_sim (r : SR k s s') (o : Spec.OSOp F) : GoS (SR k) (s.step o) (s'.step o) := by
  cases o with
  | add x => exact add_sim r x
  | remove x => exact remove_sim r x
  | clear => exact GoS.val (clear_sim r)

theorem selWalk_sim (r : SR k s s') (q : Int) (i : Nat) : ∀ (f' f : Nat), f' ≤ f → ∀ p, (∀ z, p = some z → z < s'.alloc) → ∀ pos,
    GoS (fun a b => a.1 = b.1.map (sh k) ∧ (∀ z, b.1 = some z → z < s'.alloc) ∧ a.2 = b.2)
      (s.selWalk q i f (p.map (sh k)) pos) (s'.selWalk q i f' p pos) := by
  intro f'
  induction f' with
  | zero => intros; exact GoS.hang
  | succ f' ih =>
    intro f hf p hp pos
    obtain ⟨f, rfl⟩ : ∃ g, f = g + 1 := ⟨f - 1, by omega⟩
    cases p with
    | none => exact GoS.panic
    | some a =>
      simp only [Option.map_some, selWalk]
      refine (widthAt_sim r (hp a rfl) i).bind ?_
      rintro w _ rfl
      split
      · refine (nextAt_sim r (hp a rfl) i).bind ?_
        rintro _ y ⟨rfl, hy⟩
        exact ih f (by omega) y hy _
      · exact GoS.val ⟨rfl, hp, rfl⟩

theorem selDown_sim (r : SR k s s') (q : Int) : ∀ (i : Nat) (p : Option Nat), (∀ z, p = some z → z < s'.alloc) → ∀ pos,
    GoS (fun a b => a = b.map (sh k) ∧ (∀ z, b = some z → z < s'.alloc)) (s.selDown q i (p.map (sh k)) pos) (s'.selDown q i p pos) := by
  intro i
  induction i with
  | zero => intro p hp pos; exact GoS.val ⟨rfl, hp⟩
  | succ i ih =>
    intro p hp pos
    simp only [selDown]
    refine (selWalk_sim r q i _ _ (by rw [r.alloc]; omega) p hp pos).bind ?_
    rintro ⟨a, pa⟩ ⟨b, pb⟩ ⟨h1, h2, h3⟩
    simp only at h1 h2 h3
    subst h1 h3
    exact ih b h2 pa

theorem select_sim (r : SR k s s') (q : Int) : GoS Eq (s.select q) (s'.select q) := by
  unfold select
  rw [r.length]
  split
  · exact GoS.val rfl
  · rw [r.max]
    have := selDown_sim r (q + 1) s'.maxLevel (some 0) (by rintro z hz; cases hz; exact r.pos) 0
    refine this.bind ?_
    rintro _ b ⟨rfl, hb⟩
    cases b with
    | none => exact GoS.panic
    | some a => exact GoS.val (r.node a (hb a rfl)).val

theorem rankWalk_sim (r : SR k s s') (x : F) (i : Nat) : ∀ (f' f : Nat), f' ≤ f → ∀ p, p < s'.alloc → ∀ rk,
    GoS (fun a b => a.1 = sh k b.1 ∧ b.1 < s'.alloc ∧ a.2 = b.2) (s.rankWalk x i f (sh k p) rk) (s'.rankWalk x i f' p rk) := by
  intro f'
  induction f' with
  | zero => intros; exact GoS.hang
  | succ f' ih =>
    intro f hf p hp rk
    obtain ⟨f, rfl⟩ : ∃ g, f = g + 1 := ⟨f - 1, by omega⟩
    simp only [rankWalk]
    refine (nextAt_sim r hp i).bind ?_
    rintro _ y ⟨rfl, hy⟩
    cases y with
    | none => exact GoS.val ⟨rfl, hp, rfl⟩
    | some n =>
      simp only [Option.map_some]
      rw [valLt_sim r (hy n rfl)]
      split
      · refine (widthAt_sim r hp i).bind ?_
        rintro w _ rfl
        exact ih f (by omega) n (hy n rfl) _
      · exact GoS.val ⟨rfl, hp, rfl⟩

theorem rankDown_sim (r : SR k s s') (x : F) : ∀ (i p : Nat), p < s'.alloc → ∀ rk,
    GoS Eq (s.rankDown x i (sh k p) rk) (s'.rankDown x i p rk) := by
  intro i
  induction i with
  | zero => intro p hp rk; exact GoS.val rfl
  | succ i ih =>
    intro p hp rk
    simp only [rankDown]
    refine (rankWalk_sim r x i _ _ (by rw [r.alloc]; omega) p hp rk).bind ?_
    rintro ⟨a, ra⟩ ⟨b, rb⟩ ⟨h1, h2, h3⟩
    simp only at h1 h2 h3
    subst h1 h3
    exact ih b h2 ra

theorem rank_sim (r : SR k s s') (x : F) : GoS Eq (s.rank x) (s'.rank x) := by
  unfold rank
  rw [r.max]
  exact rankDown_sim r x _ 0 r.pos 0

/-- A cleared list and a new one whose generator is where the old one's is. -/
theorem clear_new {s : SkipList F} (h0 : (s.store 0).val = none) (hp : 0 < s.alloc) :
    SR (s.alloc - 1) s.clear (new s.maxLevel (fun n => s.draws (s.drawn + n))) := by
  refine ⟨?_, Nat.one_pos, rfl, rfl, ?_, ?_⟩
  · simp only [clear, new, SkipList.upd]; omega
  · intro j; simp [clear, new, SkipList.upd]
  · intro x hx
    simp only [new] at hx
    obtain rfl : x = 0 := by omega
    refine ⟨?_, ?_, ?_, ?_, ?_⟩ <;> simp [clear, new, SkipList.upd, headNode, sh, h0]

/-! ## What every run keeps -/

/-- Every returned value satisfies `P`. -/
def GoP {α : Type} (P : α → Prop) (x : Go α) : Prop := ∀ a, x = .val a → P a

theorem GoP.bind {α β : Type} {P : β → Prop} {x : Go α} {f : α → Go β} (h : ∀ a, x = .val a → GoP P (f a)) : GoP P (x >>= f) := by
  cases x with
  | panic => intro a e; simp at e
  | hang => intro a e; simp at e
  | val a => exact h a rfl

theorem GoP.runOps {S A : Type} {step : S → A → Go S} {P : S → Prop} (h : ∀ s a, P s → GoP P (step s a)) :
    ∀ (l : List A) (s : S), P s → GoP P (Go.runOps step s l) := by
  intro l
  induction l with
  | nil => intro s hs b e; cases e; exact hs
  | cons a l ih =>
    intro s hs b e
    simp only [Go.runOps] at e
    cases e1 : step s a with
    | panic => rw [e1] at e; simp at e
    | hang => rw [e1] at e; simp at e
    | val t => rw [e1] at e; exact ih t (h s a hs t e1) b e

/-- The head has no value, the generator was asked `d` times. -/
structure Kept (M : Nat) (draws : Nat → Nat → Bool) (d : Nat) (s : SkipList F) : Prop where
  head : (s.store 0).val = none
  pos : 0 < s.alloc
  drawn : s.drawn = d
  max : s.maxLevel = M
  draws : s.draws = draws

variable {M d : Nat} {dr : Nat → Nat → Bool}

theorem setNext_kept {s : SkipList F} (h : Kept M dr d s) (a i : Nat) (p : Option Nat) : GoP (Kept M dr d) (s.setNext a i p) := by
  unfold setNext
  split
  · intro t e; cases e
    refine ⟨?_, h.pos, h.drawn, h.max, h.draws⟩
    simp only [SkipList.upd]
    by_cases e : (0 : Nat) = a
    · subst e; simpa using h.head
    · rw [Function.update_of_ne e]; exact h.head
  · intro t e; cases e

theorem addWidth_kept {s : SkipList F} (h : Kept M dr d s) (a i : Nat) (w : Int) : GoP (Kept M dr d) (s.addWidth a i w) := by
  unfold addWidth
  split
  · intro t e; cases e
    refine ⟨?_, h.pos, h.drawn, h.max, h.draws⟩
    simp only [SkipList.upd]
    by_cases e : (0 : Nat) = a
    · subst e; simpa using h.head
    · rw [Function.update_of_ne e]; exact h.head
  · intro t e; cases e

theorem add_kept {s : SkipList F} (h : Kept M dr d s) (x : F) : GoP (Kept M dr (d + 1)) (s.add x) := by
  unfold add
  refine GoP.bind (fun prevs _ => ?_)
  refine GoP.bind (fun t ht => ?_)
  have h1 : Kept M dr (d + 1) t := by
    refine GoP.runOps (fun s i hs => ?_) _ _ ?_ t ht
    · unfold linkAt
      refine GoP.bind (fun p _ => GoP.bind (fun q _ => GoP.bind (fun u hu => ?_)))
      exact setNext_kept (setNext_kept hs _ _ _ u hu) _ _ _
    · refine ⟨?_, Nat.succ_pos _, by simp [h.drawn], h.max, h.draws⟩
      simp only [SkipList.upd]
      have := h.pos
      rw [Function.update_of_ne (by omega)]; exact h.head
  refine GoP.bind (fun u hu => ?_)
  have h2 := addWidth_kept h1 _ _ _ u hu
  refine GoP.bind (fun v hv => ?_)
  have h3 : Kept M dr (d + 1) v := by
    refine GoP.runOps (fun s i hs => ?_) _ _ h2 v hv
    unfold bumpAt
    exact GoP.bind (fun p _ => addWidth_kept hs _ _ _)
  refine GoP.bind (fun w hw => ?_)
  have h4 : Kept M dr (d + 1) w := by
    refine GoP.runOps (fun s i hs => ?_) _ _ h3 w hw
    unfold widthAtLevel
    refine GoP.bind (fun p _ => GoP.bind (fun q _ => GoP.bind (fun u hu => GoP.bind (fun y _ => GoP.bind (fun z _ => ?_)))))
    exact addWidth_kept (addWidth_kept hs _ _ _ u hu) _ _ _
  intro t e; cases e
  exact ⟨h4.head, h4.pos, h4.drawn, h4.max, h4.draws⟩

theorem remove_kept {s : SkipList F} (h : Kept M dr d s) (x : F) : GoP (Kept M dr d) (s.remove x) := by
  unfold remove
  refine GoP.bind (fun prevs _ => GoP.bind (fun p _ => GoP.bind (fun n _ => ?_)))
  cases n with
  | none => intro t e; cases e; exact h
  | some n =>
    simp only
    split
    · refine GoP.bind (fun t ht => ?_)
      have h1 : Kept M dr d t := by
        refine GoP.runOps (fun s i hs => ?_) _ _ h t ht
        unfold unlinkAt
        refine GoP.bind (fun p _ => ?_)
        split
        · refine GoP.bind (fun q _ => GoP.bind (fun u hu => GoP.bind (fun y _ => ?_)))
          exact addWidth_kept (setNext_kept hs _ _ _ u hu) _ _ _
        · exact addWidth_kept hs _ _ _
      intro u e; cases e
      exact ⟨h1.head, h1.pos, h1.drawn, h1.max, h1.draws⟩
    · intro t e; cases e; exact h

theorem clear_kept {s : SkipList F} (h : Kept M dr d s) : Kept M dr d s.clear := by
  refine ⟨?_, h.pos, h.drawn, h.max, h.draws⟩
  simp [clear, SkipList.upd, h.head]

/-- How often a client history adds. -/
def addCount (ops : List (Spec.OSOp F)) : Nat := (ops.filter (fun o => match o with | .add _ => true | _ => false)).length

theorem run_kept (M : Nat) (dr : Nat → Nat → Bool) (ops : List (Spec.OSOp F)) : GoP (Kept M dr (addCount ops)) (SkipList.run M dr ops) := by
  induction ops using List.reverseRecOn with
  | nil => intro s e; cases e; exact ⟨rfl, Nat.one_pos, rfl, rfl, rfl⟩
  | append_singleton ops o ih =>
    intro s e
    unfold SkipList.run at e ih
    rw [Go.runOps_append] at e
    cases e1 : Go.runOps step (new M dr) ops with
    | panic => rw [e1] at e; simp at e
    | hang => rw [e1] at e; simp at e
    | val t =>
      have h := ih t e1
      rw [e1] at e
      simp only [Go.runOps] at e
      cases e2 : t.step o with
      | panic => rw [e2] at e; simp at e
      | hang => rw [e2] at e; simp at e
      | val u =>
        rw [e2] at e
        cases e
        cases o with
        | add x => have := add_kept h x s e2; simpa [addCount] using this
        | remove x => have := remove_kept h x s e2; simpa [addCount] using this
        | clear => cases e2; have := clear_kept h; simpa [addCount] using this

end Verif.Skip
