import Verif.Model.MinMax
import Verif.Proofs.Heap
import Verif.Proofs.Window
import Mathlib.Data.List.Basic
import Mathlib.Data.Int.Order.Basic
import Mathlib.Order.MinMax

/-! # `Max` and `Min`: the monotone deque -/

set_option linter.unusedSectionVars false
set_option linter.unusedSimpArgs false

namespace Verif.MinMax
open Verif Verif.Spec Verif.Heap

section generic
variable {F : Type} (lt : F → F → Bool)

/-- The pop loop for an arbitrary comparison. -/
def popB (x : F) : List F → List F × Nat
  | [] => ([], 0)
  | b :: r => if lt b x then ((popB x r).1, (popB x r).2 + 1) else (b :: r, 0)

/-- The elements with no larger element after them. -/
def smax : List F → List F
  | [] => []
  | x :: xs => if xs.all (fun y => !lt x y) then x :: smax xs else smax xs

variable {lt}

theorem popB_count (x : F) (l : List F) : (popB lt x l).1.length + (popB lt x l).2 = l.length := by
  induction l with
  | nil => rfl
  | cons b r ih => simp only [popB]; split_ifs <;> simp; omega

theorem mem_smax {a : F} {xs : List F} (h : a ∈ smax lt xs) : a ∈ xs := by
  induction xs with
  | nil => simp [smax] at h
  | cons x xs ih =>
    simp only [smax] at h
    split_ifs at h
    · rcases List.mem_cons.1 h with rfl | h
      · simp
      · exact List.mem_cons_of_mem _ (ih h)
    · exact List.mem_cons_of_mem _ (ih h)

theorem smax_length_le (xs : List F) : (smax lt xs).length ≤ xs.length := by
  induction xs with
  | nil => simp [smax]
  | cons x xs ih => simp only [smax]; split_ifs <;> simp <;> omega

theorem smax_sorted (xs : List F) : (smax lt xs).Pairwise (fun a b => lt a b = false) := by
  induction xs with
  | nil => simp [smax]
  | cons x xs ih =>
    simp only [smax]
    split_ifs with h
    · rw [List.pairwise_cons]
      refine ⟨fun a ha => ?_, ih⟩
      simpa using List.all_eq_true.1 h a (mem_smax ha)
    · exact ih

theorem popB_filter (hc : SWO lt) (y : F) (l : List F) (h : l.Pairwise (fun b a => lt a b = false)) :
    (popB lt y l).1 = l.filter (fun a => !lt a y) := by
  induction l with
  | nil => rfl
  | cons b r ih =>
    rw [List.pairwise_cons] at h
    simp only [popB, List.filter_cons]
    by_cases hb : lt b y = true
    · simp only [hb, if_true, Bool.not_true, Bool.false_eq_true, if_false]; exact ih h.2
    · have hb' : lt b y = false := by simpa using hb
      simp only [hb', Bool.false_eq_true, if_false, Bool.not_false, if_true]
      congr 1
      symm; rw [List.filter_eq_self]
      intro a ha
      simp only [hc.ntrans (h.1 a ha) hb', Bool.not_false]

theorem popB_smax (hc : SWO lt) (y : F) (xs : List F) :
    (popB lt y (smax lt xs).reverse).1.reverse = (smax lt xs).filter (fun a => !lt a y) := by
  rw [popB_filter hc y _ (List.pairwise_reverse.2 (smax_sorted xs)), List.filter_reverse, List.reverse_reverse]

theorem smax_snoc (xs : List F) (y : F) : smax lt (xs ++ [y]) = (smax lt xs).filter (fun a => !lt a y) ++ [y] := by
  induction xs with
  | nil => simp [smax]
  | cons x xs ih =>
    simp only [List.cons_append, smax, List.all_append, ih]
    by_cases h1 : xs.all (fun z => !lt x z) = true
    · by_cases h2 : lt x y = true
      · simp [h1, h2, List.filter_cons]
      · simp [h1, h2, List.filter_cons]
    · simp [h1]

theorem smax_push (hc : SWO lt) (xs : List F) (y : F) :
    (popB lt y (smax lt xs).reverse).1.reverse ++ [y] = smax lt (xs ++ [y]) := by
  rw [popB_smax hc, smax_snoc]

theorem smax_head (hc : SWO lt) {xs : List F} {f : F} {d : List F} (h : smax lt xs = f :: d) :
    f ∈ xs ∧ ∀ y ∈ xs, lt f y = false := by
  refine ⟨mem_smax (lt := lt) (by rw [h]; simp), ?_⟩
  induction xs generalizing f d with
  | nil => simp [smax] at h
  | cons x xs ih =>
    simp only [smax] at h
    split_ifs at h with ha
    · cases h
      intro y hy
      rcases List.mem_cons.1 hy with rfl | hy
      · exact hc.irrefl y
      · simpa using List.all_eq_true.1 ha y hy
    · intro y hy
      rcases List.mem_cons.1 hy with rfl | hy
      · have : ∃ z ∈ xs, lt y z = true := by simpa using ha
        obtain ⟨z, hz, hlt⟩ := this
        exact hc.ntrans (ih h z hz) (hc.asym hlt)
      · exact ih h y hy

theorem smax_ne_nil {xs : List F} (h : xs ≠ []) : smax lt xs ≠ [] := by
  rcases List.eq_nil_or_concat xs with rfl | ⟨ys, y, rfl⟩
  · exact absurd rfl h
  · rw [List.concat_eq_append, smax_snoc]; simp

/-- Dropping the oldest element: pop the front exactly if it equals the dropped element. -/
theorem smax_evict [DecidableEq F] (hc : SWO lt) (x : F) (xs : List F) :
    ∃ f d, smax lt (x :: xs) = f :: d ∧ (if f = x then d else f :: d) = smax lt xs := by
  by_cases h : xs.all (fun y => !lt x y) = true
  · exact ⟨x, smax lt xs, by simp [smax, h], by simp⟩
  · have hne : smax lt xs ≠ [] := smax_ne_nil (by rintro rfl; simp at h)
    obtain ⟨f, d, e⟩ := List.exists_cons_of_ne_nil hne
    refine ⟨f, d, by simp [smax, h, e], ?_⟩
    rw [if_neg, e]
    rintro rfl
    have : ∃ z ∈ xs, lt f z = true := by simpa using h
    obtain ⟨z, hz, hlt⟩ := this
    rw [(smax_head hc e).2 z hz] at hlt; cases hlt

theorem smax_map {G : Type} {lt' : G → G → Bool} (g : F → G) (h : ∀ a b, lt' (g a) (g b) = lt a b) (xs : List F) :
    smax lt' (xs.map g) = (smax lt xs).map g := by
  induction xs with
  | nil => rfl
  | cons x xs ih =>
    have : (xs.map g).all (fun y => !lt' (g x) y) = xs.all (fun y => !lt x y) := by simp [List.all_map, Function.comp_def, h]
    simp only [List.map_cons, smax, this, ih]
    split_ifs <;> rfl

theorem popB_map {G : Type} {lt' : G → G → Bool} (g : F → G) (h : ∀ a b, lt' (g a) (g b) = lt a b) (x : F) (l : List F) :
    (popB lt' (g x) (l.map g)).1 = (popB lt x l).1.map g := by
  induction l with
  | nil => rfl
  | cons b r ih => simp only [List.map_cons, popB, h, ih]; split_ifs <;> simp

/-- The loop never goes past an element it does not pop. -/
theorem popB_stop (x n : F) (hn : lt n x = false) (A B : List F) :
    ∃ B', (popB lt x (A ++ n :: B).reverse).1.reverse = A ++ n :: B' := by
  have key : ∀ l : List F, ∃ l', (popB lt x (l ++ n :: A.reverse)).1 = l' ++ n :: A.reverse := by
    intro l
    induction l with
    | nil => exact ⟨[], by simp [popB, hn]⟩
    | cons b r ih =>
      obtain ⟨l', e⟩ := ih
      simp only [List.cons_append, popB]
      split_ifs
      · exact ⟨l', e⟩
      · exact ⟨b :: r, rfl⟩
  obtain ⟨l', e⟩ := key B.reverse
  refine ⟨l'.reverse, ?_⟩
  have h2 : (A ++ n :: B).reverse = B.reverse ++ n :: A.reverse := by simp
  rw [h2, e]; simp

end generic

/-- The number of pushes in a history. -/
def pushes {F : Type} (ops : List (MOp F)) : Nat := (ops.filter (fun o => match o with | .push _ => true | .clear => false)).length

@[simp] theorem pushes_push {F : Type} (ops : List (MOp F)) (x : F) : pushes (ops ++ [.push x]) = pushes ops + 1 := by simp [pushes]

@[simp] theorem pushes_clear {F : Type} (ops : List (MOp F)) : pushes (ops ++ [.clear]) = pushes ops := by simp [pushes]

namespace Max

section any
variable {F : Type} [GoOrd F]

theorem popBack_eq (x : F) (l : List F) : popBack x l = popB (fun a b => a <ᵇ b) x l := by
  induction l with
  | nil => rfl
  | cons b r ih => simp only [popBack, popB, ih]

/-- What holds for every comparison, NaN included, after `n` pushes in all and the values `xs` since the last `Clear`. -/
structure W (w : Nat) (n : Nat) (xs : List F) (s : St F) : Prop where
  win : s.window = w
  cap : s.queue.cap = Ring.roundUp w
  live : s.queue.disposed = false
  q : w ≠ 0 → s.queue.items = lastN w xs
  cnt : s.count = (lastN w xs).length
  dne : w ≠ 0 → xs ≠ [] → s.deque ≠ []
  cost : s.removed + s.deque.length ≤ n

theorem W.fresh (O : Ext F) (w : Nat) : W w 0 ([] : List F) (fresh O w) :=
  ⟨rfl, by simp [Max.fresh, Ring.new], rfl, by simp [Max.fresh, Ring.new], by simp [Max.fresh], by simp, by simp [Max.fresh]⟩

theorem W.clear {O : Ext F} {w n : Nat} {xs : List F} {s : St F} (h : W w n xs s) : W w n ([] : List F) (clear O s) :=
  ⟨h.win, by simp [Max.clear, Ring.new, h.win], rfl, by simp [Max.clear, Ring.new], by simp [Max.clear], by simp, by
    have := h.cost
    simp [Max.clear]; omega⟩

/-- The shape of one windowed push. -/
theorem push_win {O : Ext F} {w n : Nat} {xs : List F} {s : St F} (h : W w n xs s) (hw : w ≠ 0) (x : F) :
    ∃ d, push O s x = .val (⟨s.window, { s.queue with items := lastN w (xs ++ [x]) }, (popB (fun a b => a <ᵇ b) x d.reverse).1.reverse ++ [x], s.ext,
        (lastN w (xs ++ [x])).length, s.removed + (s.deque.length - d.length) + (popB (fun a b => a <ᵇ b) x d.reverse).2⟩, none) ∧
      d.length ≤ s.deque.length ∧
      ((lastN w xs).length ≠ w → d = s.deque) ∧
      ((lastN w xs).length = w → ∃ v rest f d', lastN w xs = v :: rest ∧ s.deque = f :: d' ∧
        lastN w (xs ++ [x]) = rest ++ [x] ∧ d = if f =ᵇ v then d' else f :: d') := by
  have hwin : s.window ≠ 0 := by rw [h.win]; exact_mod_cast hw
  have hq := h.q hw
  have hlen : s.queue.len = (lastN w xs).length := by rw [Ring.len, hq]
  unfold push
  rw [if_pos hwin]
  by_cases hf : (lastN w xs).length = w
  · obtain ⟨v, rest, e⟩ : ∃ v rest, lastN w xs = v :: rest := by
      match hh : lastN w xs with
      | [] => rw [hh] at hf; simp at hf; omega
      | v :: r => exact ⟨v, r, rfl⟩
    have hxs : xs ≠ [] := by rintro rfl; simp at e
    obtain ⟨f, d', ed⟩ := List.exists_cons_of_ne_nil (h.dne hw hxs)
    have hget := Ring.get_ok h.live (hq.trans e)
    have hl2 : lastN w (xs ++ [x]) = rest ++ [x] := by rw [lastN_snoc_full hw xs x hf, e]; rfl
    have hrl : rest.length + 1 = w := by rw [e] at hf; simpa using hf
    have hput := Ring.put_ok (r := { s.queue with items := rest }) h.live (by
      show rest.length < s.queue.cap
      rw [h.cap]; have := Ring.le_roundUp w; omega) x
    have hcond : (s.queue.len : Int) = s.window := by rw [hlen, h.win, hf]
    have hcnt := h.cnt
    rw [hf] at hcnt
    by_cases hfv : (f =ᵇ v) = true
    · refine ⟨d', ?_, by simp [ed], fun c => absurd hf c, fun _ => ⟨v, rest, f, d', e, ed, hl2, by simp [hfv]⟩⟩
      unfold evict
      rw [if_pos hcond, hget, ed]
      simp only [hfv, if_true]
      rw [hput]
      simp only [popBack_eq, hl2, hcnt]
      simp; omega
    · refine ⟨f :: d', ?_, by simp [ed], fun c => absurd hf c, fun _ => ⟨v, rest, f, d', e, ed, hl2, by simp [hfv]⟩⟩
      unfold evict
      rw [if_pos hcond, hget, ed]
      have hfv' : (f =ᵇ v) = false := by simpa using hfv
      simp only [hfv', Bool.false_eq_true, if_false]
      rw [hput]
      simp only [popBack_eq, hl2, hcnt]
      simp; omega
  · refine ⟨s.deque, ?_, Nat.le_refl _, fun _ => rfl, fun c => absurd c hf⟩
    have hput := Ring.put_ok (r := s.queue) h.live (by
      rw [hq, h.cap]
      exact lt_of_lt_of_le (lt_of_le_of_ne (lastN_length_le hw xs) hf) (Ring.le_roundUp w)) x
    unfold evict
    rw [if_neg (by rw [hlen, h.win]; exact_mod_cast hf)]
    simp only
    rw [hput]
    simp only [popBack_eq, hq, h.cnt, lastN_snoc_room hw xs x hf]
    simp

theorem W.push {O : Ext F} {w n : Nat} {xs : List F} {s : St F} (h : W w n xs s) (x : F) :
    ∃ s', push O s x = .val (s', none) ∧ W w (n + 1) (xs ++ [x]) s' := by
  by_cases hw : w = 0
  · subst hw
    have hwin : ¬ s.window ≠ 0 := by simp [h.win]
    refine ⟨_, if_neg hwin, h.win, h.cap, h.live, fun c => absurd rfl c, ?_, fun c => absurd rfl c, ?_⟩
    · have := h.cnt
      rw [lastN_zero] at this
      simp [lastN_zero, this]
    · have := h.cost
      simp; omega
  · obtain ⟨d, e, hd, -⟩ := push_win (O := O) h hw x
    refine ⟨_, e, h.win, h.cap, h.live, fun _ => rfl, rfl, fun _ _ => by simp, ?_⟩
    have h1 := h.cost
    have h2 := popB_count (lt := fun a b => a <ᵇ b) x d.reverse
    simp at h2 ⊢; omega

/-- Every history returns, whatever the comparisons. -/
theorem run_w (O : Ext F) (w : Nat) (ops : List (MOp F)) :
    ∃ s, run O (Max.fresh O w) ops = .val (s, []) ∧ W w (pushes ops) (since ops) s := by
  induction ops using List.reverseRecOn with
  | nil => exact ⟨_, rfl, W.fresh O w⟩
  | append_singleton ops o ih =>
    obtain ⟨s, e, hi⟩ := ih
    unfold run at e ⊢
    rw [Go.runOps_append, e]
    cases o with
    | push x =>
      obtain ⟨s', e', hi'⟩ := hi.push (O := O) x
      exact ⟨s', by simp [Go.runOps, logged, step, e'], by rw [since_push, pushes_push]; exact hi'⟩
    | clear => exact ⟨Max.clear O s, by simp [Go.runOps, logged, step], by rw [since_clear, pushes_clear]; exact hi.clear⟩

theorem W.value {w n : Nat} {xs : List F} {s : St F} (h : W w n xs s) :
    (xs = [] → value s = .val (.error "no values seen yet")) ∧ (xs ≠ [] → ∃ v, value s = .val (.ok v)) := by
  have hc := h.cnt
  constructor
  · rintro rfl
    exact if_pos (by rw [hc]; simp)
  · intro hx
    have h0 : s.count ≠ 0 := by
      rw [hc]
      have := List.length_pos_iff.2 (lastN_ne_nil (w := w) hx)
      omega
    unfold Max.value
    rw [if_neg h0]
    by_cases hw : w = 0
    · exact ⟨_, if_pos (by rw [h.win, hw]; rfl)⟩
    · obtain ⟨f, d, e⟩ := List.exists_cons_of_ne_nil (h.dne hw hx)
      rw [if_neg (by rw [h.win]; exact_mod_cast hw), e]
      exact ⟨f, rfl⟩

end any

section order
variable {F : Type} [LinearOrder F]

theorem swo : SWO (fun a b : F => a <ᵇ b) := by
  constructor
  · intro a b h; simp at *; exact le_of_lt h
  · intro a b c h1 h2; simp at *; exact le_trans h2 h1

/-- Without NaN the deque is the list of suffix extrema of the window. -/
theorem deque_push {O : Ext F} {w n : Nat} {xs : List F} {s s' : St F} (h : W w n xs s) (hw : w ≠ 0) (x : F)
    (hd : s.deque = smax (fun a b => a <ᵇ b) (lastN w xs)) (e : push O s x = .val (s', none)) :
    s'.deque = smax (fun a b => a <ᵇ b) (lastN w (xs ++ [x])) := by
  obtain ⟨d, e', -, h1, h2⟩ := push_win (O := O) h hw x
  rw [e] at e'
  cases e'
  show (popB _ x d.reverse).1.reverse ++ [x] = _
  by_cases hf : (lastN w xs).length = w
  · obtain ⟨v, rest, f, d', e1, e2, e3, e4⟩ := h2 hf
    obtain ⟨f', d'', e5, e6⟩ := smax_evict (swo (F := F)) v rest
    rw [hd, e1, e5] at e2
    cases e2
    have : d = smax (fun a b => a <ᵇ b) rest := by rw [e4, ← e6]; simp
    rw [this, smax_push swo, e3]
  · rw [h1 hf, hd, smax_push swo, lastN_snoc_room hw xs x hf]

end order

section order
variable {F : Type} [LinearOrder F] [BoundedOrder F]

/-- The state of a metric on a stream without NaN. -/
structure I (w n : Nat) (xs : List F) (s : St F) : Prop where
  ww : W w n xs s
  d : w ≠ 0 → s.deque = smax (fun a b => a <ᵇ b) (lastN w xs)
  m : w = 0 → s.deque = [] ∧ s.ext = xs.foldl max ⊥

theorem run_inv (w : Nat) (ops : List (MOp F)) :
    ∃ s, run (Ext.ofOrder F) (Max.fresh (Ext.ofOrder F) w) ops = .val (s, []) ∧ I w (pushes ops) (since ops) s := by
  induction ops using List.reverseRecOn with
  | nil => exact ⟨_, rfl, W.fresh _ w, fun _ => by simp [Max.fresh, smax], fun _ => ⟨rfl, rfl⟩⟩
  | append_singleton ops o ih =>
    obtain ⟨s, e, hi⟩ := ih
    unfold run at e ⊢
    rw [Go.runOps_append, e]
    cases o with
    | push x =>
      obtain ⟨s', e', hw'⟩ := hi.ww.push (O := Ext.ofOrder F) x
      refine ⟨s', by simp [Go.runOps, logged, step, e'], ?_⟩
      rw [since_push, pushes_push]
      refine ⟨hw', fun h0 => deque_push hi.ww h0 x (hi.d h0) e', fun h0 => ?_⟩
      unfold Max.push at e'
      rw [if_neg (by rw [hi.ww.win, h0]; simp)] at e'
      cases e'
      rw [List.foldl_append]
      exact ⟨(hi.m h0).1, by simp [Ext.ofOrder, (hi.m h0).2]⟩
    | clear =>
      refine ⟨Max.clear (Ext.ofOrder F) s, by simp [Go.runOps, logged, step], ?_⟩
      rw [since_clear, pushes_clear]
      exact ⟨hi.ww.clear, fun _ => by simp [Max.clear, smax], fun _ => ⟨rfl, rfl⟩⟩

theorem foldl_ext (xs : List F) (b : F) : (xs.foldl max b = b ∨ xs.foldl max b ∈ xs) ∧ (∀ y ∈ xs, y ≤ xs.foldl max b) ∧ b ≤ xs.foldl max b := by
  induction xs generalizing b with
  | nil => simp
  | cons x xs ih =>
    obtain ⟨h1, h2, h3⟩ := ih (max b x)
    simp only [List.foldl_cons]
    refine ⟨?_, ?_, ?_⟩
    · rcases h1 with h1 | h1
      · rw [h1]
        rcases max_choice b x with h | h
        · exact Or.inl h
        · right; rw [h]; simp
      · right; exact List.mem_cons_of_mem _ h1
    · intro y hy
      rcases List.mem_cons.1 hy with rfl | hy
      · exact le_trans (le_max_right _ _) h3
      · exact h2 y hy
    · exact le_trans (le_max_left _ _) h3

theorem I.value {w n : Nat} {xs : List F} {s : St F} (h : I w n xs s) (hx : xs ≠ []) :
    ∃ v, value s = .val (.ok v) ∧ v ∈ lastN w xs ∧ ∀ y ∈ lastN w xs, y ≤ v := by
  have h0 : s.count ≠ 0 := by
    rw [h.ww.cnt]
    have := List.length_pos_iff.2 (lastN_ne_nil (w := w) hx)
    omega
  unfold Max.value
  rw [if_neg h0]
  by_cases hw : w = 0
  · subst hw
    refine ⟨_, if_pos h.ww.win, ?_⟩
    rw [(h.m rfl).2, lastN_zero]
    obtain ⟨h1, h2, h3⟩ := foldl_ext xs (⊥ : F)
    refine ⟨?_, h2⟩
    rcases h1 with h1 | h1
    · obtain ⟨y, ys, rfl⟩ := List.exists_cons_of_ne_nil hx
      have hy := h2 y (by simp)
      rw [h1] at hy ⊢
      rw [le_bot_iff] at hy; rw [hy]; simp
    · exact h1
  · rw [if_neg (by rw [h.ww.win]; exact_mod_cast hw)]
    obtain ⟨f, d, e⟩ := List.exists_cons_of_ne_nil (h.ww.dne hw hx)
    rw [e]
    refine ⟨f, rfl, ?_⟩
    rw [h.d hw] at e
    obtain ⟨h1, h2⟩ := smax_head swo e
    exact ⟨h1, fun y hy => by simpa using h2 y hy⟩

end order

/-! ### NaN -/

section nan
variable {F : Type} [LinearOrder F]

theorem nan_lt (a b : WithNaN F) (h : a = .nan ∨ b = .nan) : (a <ᵇ b) = false := by
  rcases h with rfl | rfl
  · rfl
  · cases a <;> rfl

/-- After a NaN and `k` further pushes: the deque still contains the NaN, preceded only by suffix extrema of older values that are
still in the queue. -/
def Stuck (w k : Nat) (xs : List (WithNaN F)) (s : St (WithNaN F)) : Prop :=
  ∃ (L : List F) (R B : List (WithNaN F)), lastN w xs = L.map .num ++ R ∧
    s.deque = (smax (fun a b => a <ᵇ b) L).map .num ++ .nan :: B ∧ (L ≠ [] → R.length = k + 1)

theorem evict_num (v : F) (L : List F) (T : List (WithNaN F)) : ∃ (f : WithNaN F) (d : List (WithNaN F)),
    (smax (fun a b : F => a <ᵇ b) (v :: L)).map .num ++ T = f :: d ∧
      (if f =ᵇ .num v then d else f :: d) = (smax (fun a b : F => a <ᵇ b) L).map .num ++ T := by
  obtain ⟨f, d, e1, e2⟩ := smax_evict (swo (F := F)) v L
  refine ⟨.num f, d.map .num ++ T, by rw [e1]; rfl, ?_⟩
  rw [← e2]
  have : ((WithNaN.num f) =ᵇ (WithNaN.num v)) = decide (f = v) := rfl
  rw [this]
  by_cases h : f = v <;> simp [h]

theorem Stuck.push {O : Ext (WithNaN F)} {w n k : Nat} {xs : List (WithNaN F)} {s s' : St (WithNaN F)} (h : W w n xs s) (hw : w ≠ 0)
    (hs : Stuck w k xs s) (x : WithNaN F) (e : push O s x = .val (s', none)) : Stuck w (k + 1) (xs ++ [x]) s' := by
  obtain ⟨d, e', -, h1, h2⟩ := push_win (O := O) h hw x
  rw [e] at e'
  cases e'
  obtain ⟨L, R, B, a1, a2, a3⟩ := hs
  have key : ∀ (L' : List F) (B' : List (WithNaN F)), d = (smax (fun a b => a <ᵇ b) L').map .num ++ .nan :: B' →
      ∃ B'', (popB (fun a b => a <ᵇ b) x d.reverse).1.reverse ++ [x] = (smax (fun a b => a <ᵇ b) L').map .num ++ .nan :: B'' := by
    intro L' B' hd
    obtain ⟨B1, hB⟩ := popB_stop (lt := fun a b : WithNaN F => a <ᵇ b) x .nan (nan_lt _ _ (by simp)) ((smax (fun a b => a <ᵇ b) L').map .num) B'
    exact ⟨B1 ++ [x], by rw [hd, hB]; simp⟩
  by_cases hf : (lastN w xs).length = w
  · obtain ⟨v, rest, f, d', e1, e2, e3, e4⟩ := h2 hf
    rw [a1] at e1
    cases L with
    | nil =>
      simp [smax] at a2 e1
      rw [a2] at e2; cases e2
      have hne : ((WithNaN.nan : WithNaN F) =ᵇ v) = false := by cases v <;> rfl
      rw [hne] at e4
      obtain ⟨B'', hB⟩ := key [] B (by simpa [smax] using e4)
      exact ⟨[], rest ++ [x], B'', by simp [e3], hB, by simp⟩
    | cons l L =>
      simp only [List.map_cons, List.cons_append, List.cons.injEq] at e1
      obtain ⟨rfl, e1⟩ := e1
      obtain ⟨f', d'', b1, b2⟩ := evict_num l L (.nan :: B)
      rw [a2, b1] at e2
      cases e2
      rw [b2] at e4
      obtain ⟨B'', hB⟩ := key L B e4
      refine ⟨L, R ++ [x], B'', by rw [e3, ← e1]; simp, hB, fun _ => ?_⟩
      rw [List.length_append, a3 (by simp)]; rfl
  · obtain ⟨B'', hB⟩ := key L B (by rw [h1 hf, a2])
    refine ⟨L, R ++ [x], B'', by rw [lastN_snoc_room hw xs x hf, a1]; simp, hB, fun hL => ?_⟩
    rw [List.length_append, a3 hL]; rfl

/-- Before the first NaN. -/
def Clean (w : Nat) (ys : List F) (s : St (WithNaN F)) : Prop := s.deque = (smax (fun a b => a <ᵇ b) (lastN w ys)).map .num

theorem lastN_map {G : Type} (w : Nat) (ys : List F) (g : F → G) : lastN w (ys.map g) = (lastN w ys).map g := by
  unfold lastN; split_ifs <;> simp [List.map_drop]

theorem Clean.push {O : Ext (WithNaN F)} {w n : Nat} {ys : List F} {s s' : St (WithNaN F)} (h : W w n (ys.map .num) s) (hw : w ≠ 0)
    (hs : Clean w ys s) (x : WithNaN F) (e : push O s x = .val (s', none)) :
    (∀ y, x = .num y → Clean w (ys ++ [y]) s') ∧ (x = .nan → Stuck w 0 (ys.map .num ++ [.nan]) s') := by
  obtain ⟨d, e', -, h1, h2⟩ := push_win (O := O) h hw x
  rw [e] at e'
  cases e'
  have hlen : (lastN w (ys.map WithNaN.num)).length = (lastN w ys).length := by rw [lastN_map]; simp
  -- the deque after the eviction
  have hd : ∃ L : List F, d = (smax (fun a b => a <ᵇ b) L).map .num ∧ ∀ y, lastN w (ys.map WithNaN.num ++ [y]) = L.map .num ++ [y] ∧
      ∀ z, lastN w (ys ++ [z]) = L ++ [z] := by
    by_cases hf : (lastN w ys).length = w
    · obtain ⟨v, rest, f, d', e1, e2, e3, e4⟩ := h2 (hlen.trans hf)
      rw [lastN_map] at e1
      cases hL : lastN w ys with
      | nil => rw [hL] at hf; simp at hf; omega
      | cons l L =>
        rw [hL] at e1
        simp only [List.map_cons, List.cons.injEq] at e1
        obtain ⟨rfl, e1⟩ := e1
        obtain ⟨f', d'', b1, b2⟩ := evict_num l L []
        rw [hs, hL] at e2
        rw [List.append_nil] at b1 b2
        rw [b1] at e2
        cases e2
        refine ⟨L, by rw [e4, b2], fun y => ⟨?_, fun z => ?_⟩⟩
        · rw [lastN_snoc_full hw _ y (hlen.trans hf), lastN_map, hL]; rfl
        · rw [lastN_snoc_full hw _ z hf, hL]; rfl
    · refine ⟨lastN w ys, by rw [h1 (by rw [hlen]; exact hf), hs], fun y => ⟨?_, fun z => ?_⟩⟩
      · rw [lastN_snoc_room hw _ y (by rw [hlen]; exact hf), lastN_map]
      · rw [lastN_snoc_room hw _ z hf]
  obtain ⟨L, hd1, hd2⟩ := hd
  constructor
  · rintro y rfl
    show (popB _ _ d.reverse).1.reverse ++ [_] = (smax _ (lastN w (ys ++ [y]))).map .num
    rw [(hd2 .nan).2 y, hd1, ← List.map_reverse, popB_map (lt := fun a b : F => a <ᵇ b) WithNaN.num (fun _ _ => rfl), ← smax_push swo]
    simp
  · rintro rfl
    refine ⟨L, [.nan], [], (hd2 .nan).1, ?_, fun _ => rfl⟩
    show (popB _ _ d.reverse).1.reverse ++ [_] = _
    have : ∀ l : List (WithNaN F), (popB (fun a b => a <ᵇ b) WithNaN.nan l).1 = l := by
      intro l
      cases l with
      | nil => rfl
      | cons b r => simp [popB, nan_lt _ _]
    rw [this]; simp [hd1]

theorem run_clean (O : Ext (WithNaN F)) {w : Nat} (hw : w ≠ 0) (ys : List F) :
    ∃ s n, run O (Max.fresh O w) ((ys.map .num).map .push) = .val (s, []) ∧ W w n (ys.map .num) s ∧ Clean w ys s := by
  induction ys using List.reverseRecOn with
  | nil => exact ⟨_, 0, rfl, W.fresh O w, by simp [Clean, Max.fresh, smax]⟩
  | append_singleton ys y ih =>
    obtain ⟨s, n, e, h, hc⟩ := ih
    obtain ⟨s', e', h'⟩ := h.push (O := O) (.num y)
    refine ⟨s', n + 1, ?_, by simpa using h', (hc.push h hw _ e').1 y rfl⟩
    unfold run at e ⊢
    rw [List.map_append, List.map_append, Go.runOps_append, e]
    simp [Go.runOps, logged, step, e']

theorem run_stuck (O : Ext (WithNaN F)) {w : Nat} (hw : w ≠ 0) (ys : List F) (zs : List (WithNaN F)) :
    ∃ s n, run O (Max.fresh O w) ((ys.map WithNaN.num ++ .nan :: zs).map .push) = .val (s, []) ∧
      W w n (ys.map .num ++ .nan :: zs) s ∧ Stuck w zs.length (ys.map .num ++ .nan :: zs) s := by
  induction zs using List.reverseRecOn with
  | nil =>
    obtain ⟨s, n, e, h, hc⟩ := run_clean O hw ys
    obtain ⟨s', e', h'⟩ := h.push (O := O) .nan
    refine ⟨s', n + 1, ?_, h', (hc.push h hw _ e').2 rfl⟩
    unfold run at e ⊢
    rw [List.map_append, Go.runOps_append, e]
    simp [Go.runOps, logged, step, e']
  | append_singleton zs z ih =>
    obtain ⟨s, n, e, h, hc⟩ := ih
    obtain ⟨s', e', h'⟩ := h.push (O := O) z
    have hl : ys.map WithNaN.num ++ .nan :: (zs ++ [z]) = (ys.map WithNaN.num ++ .nan :: zs) ++ [z] := by simp
    rw [hl]
    refine ⟨s', n + 1, ?_, h', by rw [List.length_append]; exact hc.push h hw z e'⟩
    unfold run at e ⊢
    rw [List.map_append, Go.runOps_append, e]
    simp [Go.runOps, logged, step, e']

/-- A NaN followed by at least `w - 1` pushes of anything: `Value` is NaN. -/
theorem nan_forever (O : Ext (WithNaN F)) {w : Nat} (hw : w ≠ 0) (ys : List F) (zs : List (WithNaN F)) (hz : w ≤ zs.length + 1) :
    ∃ s, run O (Max.fresh O w) ((ys.map WithNaN.num ++ .nan :: zs).map .push) = .val (s, []) ∧ value s = .val (.ok .nan) := by
  obtain ⟨s, n, e, h, L, R, B, a1, a2, a3⟩ := run_stuck O hw ys zs
  refine ⟨s, e, ?_⟩
  have hL : L = [] := by
    by_contra c
    have h1 := a3 c
    have h2 := congrArg List.length a1
    have h3 := lastN_length_le hw (ys.map WithNaN.num ++ .nan :: zs)
    have h4 := List.length_pos_iff.2 c
    simp only [List.length_append, List.length_map] at h2
    omega
  rw [hL] at a2
  have h0 : s.count ≠ 0 := by
    rw [h.cnt]
    have := List.length_pos_iff.2 (lastN_ne_nil (w := w) (xs := ys.map WithNaN.num ++ .nan :: zs) (by simp))
    omega
  unfold Max.value
  rw [if_neg h0, if_neg (by rw [h.win]; exact_mod_cast hw), a2]
  rfl

end nan

end Max

namespace Min

section any
variable {F : Type} [GoOrd F]

theorem popBack_eq (x : F) (l : List F) : popBack x l = popB (fun a b => b <ᵇ a) x l := by
  induction l with
  | nil => rfl
  | cons b r ih => simp only [popBack, popB, ih]

/-- What holds for every comparison, NaN included, after `n` pushes in all and the values `xs` since the last `Clear`. -/
structure W (w : Nat) (n : Nat) (xs : List F) (s : St F) : Prop where
  win : s.window = w
  cap : s.queue.cap = Ring.roundUp w
  live : s.queue.disposed = false
  q : w ≠ 0 → s.queue.items = lastN w xs
  cnt : s.count = (lastN w xs).length
  dne : w ≠ 0 → xs ≠ [] → s.deque ≠ []
  cost : s.removed + s.deque.length ≤ n

theorem W.fresh (O : Ext F) (w : Nat) : W w 0 ([] : List F) (fresh O w) :=
  ⟨rfl, by simp [Min.fresh, Ring.new], rfl, by simp [Min.fresh, Ring.new], by simp [Min.fresh], by simp, by simp [Min.fresh]⟩

theorem W.clear {O : Ext F} {w n : Nat} {xs : List F} {s : St F} (h : W w n xs s) : W w n ([] : List F) (clear O s) :=
  ⟨h.win, by simp [Min.clear, Ring.new, h.win], rfl, by simp [Min.clear, Ring.new], by simp [Min.clear], by simp, by
    have := h.cost
    simp [Min.clear]; omega⟩

/-- The shape of one windowed push. -/
theorem push_win {O : Ext F} {w n : Nat} {xs : List F} {s : St F} (h : W w n xs s) (hw : w ≠ 0) (x : F) :
    ∃ d, push O s x = .val (⟨s.window, { s.queue with items := lastN w (xs ++ [x]) }, (popB (fun a b => b <ᵇ a) x d.reverse).1.reverse ++ [x], s.ext,
        (lastN w (xs ++ [x])).length, s.removed + (s.deque.length - d.length) + (popB (fun a b => b <ᵇ a) x d.reverse).2⟩, none) ∧
      d.length ≤ s.deque.length ∧
      ((lastN w xs).length ≠ w → d = s.deque) ∧
      ((lastN w xs).length = w → ∃ v rest f d', lastN w xs = v :: rest ∧ s.deque = f :: d' ∧
        lastN w (xs ++ [x]) = rest ++ [x] ∧ d = if f =ᵇ v then d' else f :: d') := by
  have hwin : s.window ≠ 0 := by rw [h.win]; exact_mod_cast hw
  have hq := h.q hw
  have hlen : s.queue.len = (lastN w xs).length := by rw [Ring.len, hq]
  unfold push
  rw [if_pos hwin]
  by_cases hf : (lastN w xs).length = w
  · obtain ⟨v, rest, e⟩ : ∃ v rest, lastN w xs = v :: rest := by
      match hh : lastN w xs with
      | [] => rw [hh] at hf; simp at hf; omega
      | v :: r => exact ⟨v, r, rfl⟩
    have hxs : xs ≠ [] := by rintro rfl; simp at e
    obtain ⟨f, d', ed⟩ := List.exists_cons_of_ne_nil (h.dne hw hxs)
    have hget := Ring.get_ok h.live (hq.trans e)
    have hl2 : lastN w (xs ++ [x]) = rest ++ [x] := by rw [lastN_snoc_full hw xs x hf, e]; rfl
    have hrl : rest.length + 1 = w := by rw [e] at hf; simpa using hf
    have hput := Ring.put_ok (r := { s.queue with items := rest }) h.live (by
      show rest.length < s.queue.cap
      rw [h.cap]; have := Ring.le_roundUp w; omega) x
    have hcond : (s.queue.len : Int) = s.window := by rw [hlen, h.win, hf]
    have hcnt := h.cnt
    rw [hf] at hcnt
    by_cases hfv : (f =ᵇ v) = true
    · refine ⟨d', ?_, by simp [ed], fun c => absurd hf c, fun _ => ⟨v, rest, f, d', e, ed, hl2, by simp [hfv]⟩⟩
      unfold evict
      rw [if_pos hcond, hget, ed]
      simp only [hfv, if_true]
      rw [hput]
      simp only [popBack_eq, hl2, hcnt]
      simp; omega
    · refine ⟨f :: d', ?_, by simp [ed], fun c => absurd hf c, fun _ => ⟨v, rest, f, d', e, ed, hl2, by simp [hfv]⟩⟩
      unfold evict
      rw [if_pos hcond, hget, ed]
      have hfv' : (f =ᵇ v) = false := by simpa using hfv
      simp only [hfv', Bool.false_eq_true, if_false]
      rw [hput]
      simp only [popBack_eq, hl2, hcnt]
      simp; omega
  · refine ⟨s.deque, ?_, Nat.le_refl _, fun _ => rfl, fun c => absurd c hf⟩
    have hput := Ring.put_ok (r := s.queue) h.live (by
      rw [hq, h.cap]
      exact lt_of_lt_of_le (lt_of_le_of_ne (lastN_length_le hw xs) hf) (Ring.le_roundUp w)) x
    unfold evict
    rw [if_neg (by rw [hlen, h.win]; exact_mod_cast hf)]
    simp only
    rw [hput]
    simp only [popBack_eq, hq, h.cnt, lastN_snoc_room hw xs x hf]
    simp

theorem W.push {O : Ext F} {w n : Nat} {xs : List F} {s : St F} (h : W w n xs s) (x : F) :
    ∃ s', push O s x = .val (s', none) ∧ W w (n + 1) (xs ++ [x]) s' := by
  by_cases hw : w = 0
  · subst hw
    have hwin : ¬ s.window ≠ 0 := by simp [h.win]
    refine ⟨_, if_neg hwin, h.win, h.cap, h.live, fun c => absurd rfl c, ?_, fun c => absurd rfl c, ?_⟩
    · have := h.cnt
      rw [lastN_zero] at this
      simp [lastN_zero, this]
    · have := h.cost
      simp; omega
  · obtain ⟨d, e, hd, -⟩ := push_win (O := O) h hw x
    refine ⟨_, e, h.win, h.cap, h.live, fun _ => rfl, rfl, fun _ _ => by simp, ?_⟩
    have h1 := h.cost
    have h2 := popB_count (lt := fun a b => b <ᵇ a) x d.reverse
    simp at h2 ⊢; omega

/-- Every history returns, whatever the comparisons. -/
theorem run_w (O : Ext F) (w : Nat) (ops : List (MOp F)) :
    ∃ s, run O (Min.fresh O w) ops = .val (s, []) ∧ W w (pushes ops) (since ops) s := by
  induction ops using List.reverseRecOn with
  | nil => exact ⟨_, rfl, W.fresh O w⟩
  | append_singleton ops o ih =>
    obtain ⟨s, e, hi⟩ := ih
    unfold run at e ⊢
    rw [Go.runOps_append, e]
    cases o with
    | push x =>
      obtain ⟨s', e', hi'⟩ := hi.push (O := O) x
      exact ⟨s', by simp [Go.runOps, logged, step, e'], by rw [since_push, pushes_push]; exact hi'⟩
    | clear => exact ⟨Min.clear O s, by simp [Go.runOps, logged, step], by rw [since_clear, pushes_clear]; exact hi.clear⟩

theorem W.value {w n : Nat} {xs : List F} {s : St F} (h : W w n xs s) :
    (xs = [] → value s = .val (.error "no values seen yet")) ∧ (xs ≠ [] → ∃ v, value s = .val (.ok v)) := by
  have hc := h.cnt
  constructor
  · rintro rfl
    exact if_pos (by rw [hc]; simp)
  · intro hx
    have h0 : s.count ≠ 0 := by
      rw [hc]
      have := List.length_pos_iff.2 (lastN_ne_nil (w := w) hx)
      omega
    unfold Min.value
    rw [if_neg h0]
    by_cases hw : w = 0
    · exact ⟨_, if_pos (by rw [h.win, hw]; rfl)⟩
    · obtain ⟨f, d, e⟩ := List.exists_cons_of_ne_nil (h.dne hw hx)
      rw [if_neg (by rw [h.win]; exact_mod_cast hw), e]
      exact ⟨f, rfl⟩

end any

section order
variable {F : Type} [LinearOrder F]

theorem swo : SWO (fun a b : F => b <ᵇ a) := by
  constructor
  · intro a b h; simp at *; exact le_of_lt h
  · intro a b c h1 h2; simp at *; exact le_trans h1 h2

/-- Without NaN the deque is the list of suffix extrema of the window. -/
theorem deque_push {O : Ext F} {w n : Nat} {xs : List F} {s s' : St F} (h : W w n xs s) (hw : w ≠ 0) (x : F)
    (hd : s.deque = smax (fun a b => b <ᵇ a) (lastN w xs)) (e : push O s x = .val (s', none)) :
    s'.deque = smax (fun a b => b <ᵇ a) (lastN w (xs ++ [x])) := by
  obtain ⟨d, e', -, h1, h2⟩ := push_win (O := O) h hw x
  rw [e] at e'
  cases e'
  show (popB _ x d.reverse).1.reverse ++ [x] = _
  by_cases hf : (lastN w xs).length = w
  · obtain ⟨v, rest, f, d', e1, e2, e3, e4⟩ := h2 hf
    obtain ⟨f', d'', e5, e6⟩ := smax_evict (swo (F := F)) v rest
    rw [hd, e1, e5] at e2
    cases e2
    have : d = smax (fun a b => b <ᵇ a) rest := by rw [e4, ← e6]; simp
    rw [this, smax_push swo, e3]
  · rw [h1 hf, hd, smax_push swo, lastN_snoc_room hw xs x hf]

end order

section order
variable {F : Type} [LinearOrder F] [BoundedOrder F]

/-- The state of a metric on a stream without NaN. -/
structure I (w n : Nat) (xs : List F) (s : St F) : Prop where
  ww : W w n xs s
  d : w ≠ 0 → s.deque = smax (fun a b => b <ᵇ a) (lastN w xs)
  m : w = 0 → s.deque = [] ∧ s.ext = xs.foldl min ⊤

theorem run_inv (w : Nat) (ops : List (MOp F)) :
    ∃ s, run (Ext.ofOrder F) (Min.fresh (Ext.ofOrder F) w) ops = .val (s, []) ∧ I w (pushes ops) (since ops) s := by
  induction ops using List.reverseRecOn with
  | nil => exact ⟨_, rfl, W.fresh _ w, fun _ => by simp [Min.fresh, smax], fun _ => ⟨rfl, rfl⟩⟩
  | append_singleton ops o ih =>
    obtain ⟨s, e, hi⟩ := ih
    unfold run at e ⊢
    rw [Go.runOps_append, e]
    cases o with
    | push x =>
      obtain ⟨s', e', hw'⟩ := hi.ww.push (O := Ext.ofOrder F) x
      refine ⟨s', by simp [Go.runOps, logged, step, e'], ?_⟩
      rw [since_push, pushes_push]
      refine ⟨hw', fun h0 => deque_push hi.ww h0 x (hi.d h0) e', fun h0 => ?_⟩
      unfold Min.push at e'
      rw [if_neg (by rw [hi.ww.win, h0]; simp)] at e'
      cases e'
      rw [List.foldl_append]
      exact ⟨(hi.m h0).1, by simp [Ext.ofOrder, (hi.m h0).2]⟩
    | clear =>
      refine ⟨Min.clear (Ext.ofOrder F) s, by simp [Go.runOps, logged, step], ?_⟩
      rw [since_clear, pushes_clear]
      exact ⟨hi.ww.clear, fun _ => by simp [Min.clear, smax], fun _ => ⟨rfl, rfl⟩⟩

theorem foldl_ext (xs : List F) (b : F) : (xs.foldl min b = b ∨ xs.foldl min b ∈ xs) ∧ (∀ y ∈ xs, xs.foldl min b ≤ y) ∧ xs.foldl min b ≤ b := by
  induction xs generalizing b with
  | nil => simp
  | cons x xs ih =>
    obtain ⟨h1, h2, h3⟩ := ih (min b x)
    simp only [List.foldl_cons]
    refine ⟨?_, ?_, ?_⟩
    · rcases h1 with h1 | h1
      · rw [h1]
        rcases min_choice b x with h | h
        · exact Or.inl h
        · right; rw [h]; simp
      · right; exact List.mem_cons_of_mem _ h1
    · intro y hy
      rcases List.mem_cons.1 hy with rfl | hy
      · exact le_trans h3 (min_le_right _ _)
      · exact h2 y hy
    · exact le_trans h3 (min_le_left _ _)

theorem I.value {w n : Nat} {xs : List F} {s : St F} (h : I w n xs s) (hx : xs ≠ []) :
    ∃ v, value s = .val (.ok v) ∧ v ∈ lastN w xs ∧ ∀ y ∈ lastN w xs, v ≤ y := by
  have h0 : s.count ≠ 0 := by
    rw [h.ww.cnt]
    have := List.length_pos_iff.2 (lastN_ne_nil (w := w) hx)
    omega
  unfold Min.value
  rw [if_neg h0]
  by_cases hw : w = 0
  · subst hw
    refine ⟨_, if_pos h.ww.win, ?_⟩
    rw [(h.m rfl).2, lastN_zero]
    obtain ⟨h1, h2, h3⟩ := foldl_ext xs (⊤ : F)
    refine ⟨?_, h2⟩
    rcases h1 with h1 | h1
    · obtain ⟨y, ys, rfl⟩ := List.exists_cons_of_ne_nil hx
      have hy := h2 y (by simp)
      rw [h1] at hy ⊢
      rw [top_le_iff] at hy; rw [hy]; simp
    · exact h1
  · rw [if_neg (by rw [h.ww.win]; exact_mod_cast hw)]
    obtain ⟨f, d, e⟩ := List.exists_cons_of_ne_nil (h.ww.dne hw hx)
    rw [e]
    refine ⟨f, rfl, ?_⟩
    rw [h.d hw] at e
    obtain ⟨h1, h2⟩ := smax_head swo e
    exact ⟨h1, fun y hy => by simpa using h2 y hy⟩

end order

/-! ### NaN -/

section nan
variable {F : Type} [LinearOrder F]

theorem nan_lt (a b : WithNaN F) (h : a = .nan ∨ b = .nan) : (a <ᵇ b) = false := by
  rcases h with rfl | rfl
  · rfl
  · cases a <;> rfl

/-- After a NaN and `k` further pushes: the deque still contains the NaN, preceded only by suffix extrema of older values that are
still in the queue. -/
def Stuck (w k : Nat) (xs : List (WithNaN F)) (s : St (WithNaN F)) : Prop :=
  ∃ (L : List F) (R B : List (WithNaN F)), lastN w xs = L.map .num ++ R ∧
    s.deque = (smax (fun a b => b <ᵇ a) L).map .num ++ .nan :: B ∧ (L ≠ [] → R.length = k + 1)

theorem evict_num (v : F) (L : List F) (T : List (WithNaN F)) : ∃ (f : WithNaN F) (d : List (WithNaN F)),
    (smax (fun a b : F => b <ᵇ a) (v :: L)).map .num ++ T = f :: d ∧
      (if f =ᵇ .num v then d else f :: d) = (smax (fun a b : F => b <ᵇ a) L).map .num ++ T := by
  obtain ⟨f, d, e1, e2⟩ := smax_evict (swo (F := F)) v L
  refine ⟨.num f, d.map .num ++ T, by rw [e1]; rfl, ?_⟩
  rw [← e2]
  have : ((WithNaN.num f) =ᵇ (WithNaN.num v)) = decide (f = v) := rfl
  rw [this]
  by_cases h : f = v <;> simp [h]

theorem Stuck.push {O : Ext (WithNaN F)} {w n k : Nat} {xs : List (WithNaN F)} {s s' : St (WithNaN F)} (h : W w n xs s) (hw : w ≠ 0)
    (hs : Stuck w k xs s) (x : WithNaN F) (e : push O s x = .val (s', none)) : Stuck w (k + 1) (xs ++ [x]) s' := by
  obtain ⟨d, e', -, h1, h2⟩ := push_win (O := O) h hw x
  rw [e] at e'
  cases e'
  obtain ⟨L, R, B, a1, a2, a3⟩ := hs
  have key : ∀ (L' : List F) (B' : List (WithNaN F)), d = (smax (fun a b => b <ᵇ a) L').map .num ++ .nan :: B' →
      ∃ B'', (popB (fun a b => b <ᵇ a) x d.reverse).1.reverse ++ [x] = (smax (fun a b => b <ᵇ a) L').map .num ++ .nan :: B'' := by
    intro L' B' hd
    obtain ⟨B1, hB⟩ := popB_stop (lt := fun a b : WithNaN F => b <ᵇ a) x .nan (nan_lt _ _ (by simp)) ((smax (fun a b => b <ᵇ a) L').map .num) B'
    exact ⟨B1 ++ [x], by rw [hd, hB]; simp⟩
  by_cases hf : (lastN w xs).length = w
  · obtain ⟨v, rest, f, d', e1, e2, e3, e4⟩ := h2 hf
    rw [a1] at e1
    cases L with
    | nil =>
      simp [smax] at a2 e1
      rw [a2] at e2; cases e2
      have hne : ((WithNaN.nan : WithNaN F) =ᵇ v) = false := by cases v <;> rfl
      rw [hne] at e4
      obtain ⟨B'', hB⟩ := key [] B (by simpa [smax] using e4)
      exact ⟨[], rest ++ [x], B'', by simp [e3], hB, by simp⟩
    | cons l L =>
      simp only [List.map_cons, List.cons_append, List.cons.injEq] at e1
      obtain ⟨rfl, e1⟩ := e1
      obtain ⟨f', d'', b1, b2⟩ := evict_num l L (.nan :: B)
      rw [a2, b1] at e2
      cases e2
      rw [b2] at e4
      obtain ⟨B'', hB⟩ := key L B e4
      refine ⟨L, R ++ [x], B'', by rw [e3, ← e1]; simp, hB, fun _ => ?_⟩
      rw [List.length_append, a3 (by simp)]; rfl
  · obtain ⟨B'', hB⟩ := key L B (by rw [h1 hf, a2])
    refine ⟨L, R ++ [x], B'', by rw [lastN_snoc_room hw xs x hf, a1]; simp, hB, fun hL => ?_⟩
    rw [List.length_append, a3 hL]; rfl

/-- Before the first NaN. -/
def Clean (w : Nat) (ys : List F) (s : St (WithNaN F)) : Prop := s.deque = (smax (fun a b => b <ᵇ a) (lastN w ys)).map .num

theorem lastN_map {G : Type} (w : Nat) (ys : List F) (g : F → G) : lastN w (ys.map g) = (lastN w ys).map g := by
  unfold lastN; split_ifs <;> simp [List.map_drop]

theorem Clean.push {O : Ext (WithNaN F)} {w n : Nat} {ys : List F} {s s' : St (WithNaN F)} (h : W w n (ys.map .num) s) (hw : w ≠ 0)
    (hs : Clean w ys s) (x : WithNaN F) (e : push O s x = .val (s', none)) :
    (∀ y, x = .num y → Clean w (ys ++ [y]) s') ∧ (x = .nan → Stuck w 0 (ys.map .num ++ [.nan]) s') := by
  obtain ⟨d, e', -, h1, h2⟩ := push_win (O := O) h hw x
  rw [e] at e'
  cases e'
  have hlen : (lastN w (ys.map WithNaN.num)).length = (lastN w ys).length := by rw [lastN_map]; simp
  -- the deque after the eviction
  have hd : ∃ L : List F, d = (smax (fun a b => b <ᵇ a) L).map .num ∧ ∀ y, lastN w (ys.map WithNaN.num ++ [y]) = L.map .num ++ [y] ∧
      ∀ z, lastN w (ys ++ [z]) = L ++ [z] := by
    by_cases hf : (lastN w ys).length = w
    · obtain ⟨v, rest, f, d', e1, e2, e3, e4⟩ := h2 (hlen.trans hf)
      rw [lastN_map] at e1
      cases hL : lastN w ys with
      | nil => rw [hL] at hf; simp at hf; omega
      | cons l L =>
        rw [hL] at e1
        simp only [List.map_cons, List.cons.injEq] at e1
        obtain ⟨rfl, e1⟩ := e1
        obtain ⟨f', d'', b1, b2⟩ := evict_num l L []
        rw [hs, hL] at e2
        rw [List.append_nil] at b1 b2
        rw [b1] at e2
        cases e2
        refine ⟨L, by rw [e4, b2], fun y => ⟨?_, fun z => ?_⟩⟩
        · rw [lastN_snoc_full hw _ y (hlen.trans hf), lastN_map, hL]; rfl
        · rw [lastN_snoc_full hw _ z hf, hL]; rfl
    · refine ⟨lastN w ys, by rw [h1 (by rw [hlen]; exact hf), hs], fun y => ⟨?_, fun z => ?_⟩⟩
      · rw [lastN_snoc_room hw _ y (by rw [hlen]; exact hf), lastN_map]
      · rw [lastN_snoc_room hw _ z hf]
  obtain ⟨L, hd1, hd2⟩ := hd
  constructor
  · rintro y rfl
    show (popB _ _ d.reverse).1.reverse ++ [_] = (smax _ (lastN w (ys ++ [y]))).map .num
    rw [(hd2 .nan).2 y, hd1, ← List.map_reverse, popB_map (lt := fun a b : F => b <ᵇ a) WithNaN.num (fun _ _ => rfl), ← smax_push swo]
    simp
  · rintro rfl
    refine ⟨L, [.nan], [], (hd2 .nan).1, ?_, fun _ => rfl⟩
    show (popB _ _ d.reverse).1.reverse ++ [_] = _
    have : ∀ l : List (WithNaN F), (popB (fun a b => b <ᵇ a) WithNaN.nan l).1 = l := by
      intro l
      cases l with
      | nil => rfl
      | cons b r => simp [popB, nan_lt _ _]
    rw [this]; simp [hd1]

theorem run_clean (O : Ext (WithNaN F)) {w : Nat} (hw : w ≠ 0) (ys : List F) :
    ∃ s n, run O (Min.fresh O w) ((ys.map .num).map .push) = .val (s, []) ∧ W w n (ys.map .num) s ∧ Clean w ys s := by
  induction ys using List.reverseRecOn with
  | nil => exact ⟨_, 0, rfl, W.fresh O w, by simp [Clean, Min.fresh, smax]⟩
  | append_singleton ys y ih =>
    obtain ⟨s, n, e, h, hc⟩ := ih
    obtain ⟨s', e', h'⟩ := h.push (O := O) (.num y)
    refine ⟨s', n + 1, ?_, by simpa using h', (hc.push h hw _ e').1 y rfl⟩
    unfold run at e ⊢
    rw [List.map_append, List.map_append, Go.runOps_append, e]
    simp [Go.runOps, logged, step, e']

theorem run_stuck (O : Ext (WithNaN F)) {w : Nat} (hw : w ≠ 0) (ys : List F) (zs : List (WithNaN F)) :
    ∃ s n, run O (Min.fresh O w) ((ys.map WithNaN.num ++ .nan :: zs).map .push) = .val (s, []) ∧
      W w n (ys.map .num ++ .nan :: zs) s ∧ Stuck w zs.length (ys.map .num ++ .nan :: zs) s := by
  induction zs using List.reverseRecOn with
  | nil =>
    obtain ⟨s, n, e, h, hc⟩ := run_clean O hw ys
    obtain ⟨s', e', h'⟩ := h.push (O := O) .nan
    refine ⟨s', n + 1, ?_, h', (hc.push h hw _ e').2 rfl⟩
    unfold run at e ⊢
    rw [List.map_append, Go.runOps_append, e]
    simp [Go.runOps, logged, step, e']
  | append_singleton zs z ih =>
    obtain ⟨s, n, e, h, hc⟩ := ih
    obtain ⟨s', e', h'⟩ := h.push (O := O) z
    have hl : ys.map WithNaN.num ++ .nan :: (zs ++ [z]) = (ys.map WithNaN.num ++ .nan :: zs) ++ [z] := by simp
    rw [hl]
    refine ⟨s', n + 1, ?_, h', by rw [List.length_append]; exact hc.push h hw z e'⟩
    unfold run at e ⊢
    rw [List.map_append, Go.runOps_append, e]
    simp [Go.runOps, logged, step, e']

/-- A NaN followed by at least `w - 1` pushes of anything: `Value` is NaN. -/
theorem nan_forever (O : Ext (WithNaN F)) {w : Nat} (hw : w ≠ 0) (ys : List F) (zs : List (WithNaN F)) (hz : w ≤ zs.length + 1) :
    ∃ s, run O (Min.fresh O w) ((ys.map WithNaN.num ++ .nan :: zs).map .push) = .val (s, []) ∧ value s = .val (.ok .nan) := by
  obtain ⟨s, n, e, h, L, R, B, a1, a2, a3⟩ := run_stuck O hw ys zs
  refine ⟨s, e, ?_⟩
  have hL : L = [] := by
    by_contra c
    have h1 := a3 c
    have h2 := congrArg List.length a1
    have h3 := lastN_length_le hw (ys.map WithNaN.num ++ .nan :: zs)
    have h4 := List.length_pos_iff.2 c
    simp only [List.length_append, List.length_map] at h2
    omega
  rw [hL] at a2
  have h0 : s.count ≠ 0 := by
    rw [h.cnt]
    have := List.length_pos_iff.2 (lastN_ne_nil (w := w) (xs := ys.map WithNaN.num ++ .nan :: zs) (by simp))
    omega
  unfold Min.value
  rw [if_neg h0, if_neg (by rw [h.win]; exact_mod_cast hw), a2]
  rfl

end nan

end Min

end Verif.MinMax
