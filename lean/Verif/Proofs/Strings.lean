import Verif.Model.Strings
import Verif.Spec.Strings
import Verif.Proofs.Avl
import Verif.Proofs.Rb
import Verif.Proofs.RbWeak
import Verif.Proofs.SkipRun
import Verif.Proofs.QuantileWeak

/-! # The strings of the order statistics -/

namespace Verif
open Verif Verif.Spec

variable {F : Type}

theorem treeDrawing_nil (fmt : F → List Char) : TreeDrawing fmt [] [] := ⟨[], .nil, rfl⟩

theorem treeDrawing_append {fmt : F → List Char} {es es' : List (Nat × F)} {s s' : List Char} (h : TreeDrawing fmt es s)
    (h' : TreeDrawing fmt es' s') : TreeDrawing fmt (es ++ es') (s ++ s') := by
  obtain ⟨l, a, rfl⟩ := h
  obtain ⟨l', a', rfl⟩ := h'
  exact ⟨l ++ l', List.rel_append a a', by simp⟩

theorem treeDrawing_one {fmt : F → List Char} {d : Nat} {v : F} {pre c : List Char} (h : pre.length = 4 * d)
    (h' : ∀ c ∈ pre, c ∈ ['│', ' ', '└', '┌']) (hc : c = "└── ".toList ∨ c = "┌── ".toList) :
    TreeDrawing fmt [(d, v)] (pre ++ c ++ fmt v ++ "\n".toList) := by
  refine ⟨[pre ++ c ++ fmt v ++ "\n".toList], .cons ?_ .nil, by simp⟩
  rcases hc with rfl | rfl
  · refine ⟨pre ++ ['└'], by simp [h], ?_, by simp⟩
    intro c hc
    rcases List.mem_append.1 hc with hc | hc
    · exact h' c hc
    · simp at hc; simp [hc]
  · refine ⟨pre ++ ['┌'], by simp [h], ?_, by simp⟩
    intro c hc
    rcases List.mem_append.1 hc with hc | hc
    · exact h' c hc
    · simp at hc; simp [hc]

theorem pre_bar {pre : List Char} {d : Nat} (h : pre.length = 4 * d) (h' : ∀ c ∈ pre, c ∈ ['│', ' ', '└', '┌']) :
    (pre ++ "│   ".toList).length = 4 * (d + 1) ∧ ∀ c ∈ pre ++ "│   ".toList, c ∈ ['│', ' ', '└', '┌'] := by
  refine ⟨by simp [h]; omega, fun c hc => ?_⟩
  rcases List.mem_append.1 hc with hc | hc
  · exact h' c hc
  · simp at hc; rcases hc with hc | hc <;> simp [hc]

theorem pre_gap {pre : List Char} {d : Nat} (h : pre.length = 4 * d) (h' : ∀ c ∈ pre, c ∈ ['│', ' ', '└', '┌']) :
    (pre ++ "    ".toList).length = 4 * (d + 1) ∧ ∀ c ∈ pre ++ "    ".toList, c ∈ ['│', ' ', '└', '┌'] := by
  refine ⟨by simp [h]; omega, fun c hc => ?_⟩
  rcases List.mem_append.1 hc with hc | hc
  · exact h' c hc
  · simp at hc; simp [hc]

namespace Avl

/-- The values with their depths, from the largest to the smallest. -/
def Node.entries : Node F → Nat → List (Nat × F)
  | .nil, _ => []
  | .node l v r _ _, d => r.entries (d + 1) ++ (d, v) :: l.entries (d + 1)

theorem Node.entries_snd (t : Node F) (d : Nat) : (t.entries d).map Prod.snd = t.toList.reverse := by
  induction t generalizing d with
  | nil => rfl
  | node l v r h s ihl ihr => simp [entries, toList, ihl, ihr]

theorem Node.treeString_spec (fmt : F → List Char) (t : Node F) (ht : t.present = true) :
    ∀ (d : Nat) (pre result : List Char) (b : Bool), pre.length = 4 * d → (∀ c ∈ pre, c ∈ ['│', ' ', '└', '┌']) →
      ∃ s, t.treeString fmt pre result b = .val (result ++ s) ∧ TreeDrawing fmt (t.entries d) s := by
  induction t with
  | nil => simp [Node.present] at ht
  | node l v r h s ihl ihr =>
    intro d pre result b hp hp'
    have gen : ∀ (g : List Char) (result : List Char) (b : Bool) (t : Node F),
        (t.present = true → ∃ s, t.treeString fmt g result b = .val (result ++ s) ∧ TreeDrawing fmt (t.entries (d + 1)) s) →
        ∃ s, (if t.present then t.treeString fmt g result b else pure result) = Go.val (result ++ s) ∧
          TreeDrawing fmt (t.entries (d + 1)) s := by
      intro g result b t ht
      cases c : t.present with
      | true => simpa [c] using ht c
      | false =>
        cases t with
        | nil => exact ⟨[], by simp, treeDrawing_nil fmt⟩
        | node => simp [Node.present] at c
    have key : ∀ (g1 g2 c : List Char), (g1.length = 4 * (d + 1) ∧ ∀ c ∈ g1, c ∈ ['│', ' ', '└', '┌']) →
        (g2.length = 4 * (d + 1) ∧ ∀ c ∈ g2, c ∈ ['│', ' ', '└', '┌']) → (c = "└── ".toList ∨ c = "┌── ".toList) →
        ∃ str, ((if r.present then r.treeString fmt g1 result false else pure result) >>= fun result =>
          let result := result ++ pre ++ c ++ fmt v ++ "\n".toList
          if l.present then l.treeString fmt g2 result true else pure result) = Go.val (result ++ str) ∧
          TreeDrawing fmt ((node l v r h s).entries d) str := by
      intro g1 g2 c h1 h2 hc
      obtain ⟨s1, e1, q1⟩ := gen g1 result false r (fun c => ihr c (d + 1) g1 result false h1.1 h1.2)
      obtain ⟨s2, e2, q2⟩ := gen g2 (result ++ s1 ++ pre ++ c ++ fmt v ++ "\n".toList) true l
        (fun c => ihl c (d + 1) g2 _ true h2.1 h2.2)
      refine ⟨s1 ++ ((pre ++ c ++ fmt v ++ "\n".toList) ++ s2), ?_, ?_⟩
      · rw [e1]
        show (if l.present then _ else _) = _
        rw [e2]; simp [List.append_assoc]
      · have := treeDrawing_append q1 (treeDrawing_append (treeDrawing_one (v := v) hp hp' hc) q2)
        simpa [Node.entries] using this
    cases b with
    | true => exact key _ _ _ (pre_bar hp hp') (pre_gap hp hp') (.inl rfl)
    | false => exact key _ _ _ (pre_gap hp hp') (pre_bar hp hp') (.inr rfl)

theorem Node.string_spec (fmt : F → List Char) (t : Node F) :
    ∃ s, t.string fmt = .val s ∧ TreeDrawing fmt (t.entries 0) s := by
  cases c : t.present with
  | true =>
    obtain ⟨s, e, h⟩ := t.treeString_spec fmt c 0 [] [] true rfl (by simp)
    exact ⟨s, by simpa [Node.string, c] using e, h⟩
  | false =>
    cases t with
    | nil => exact ⟨[], rfl, treeDrawing_nil fmt⟩
    | node => simp [Node.present] at c

theorem Node.entries_le [LinearOrder F] {t : Node F} (h : WF t) : ∀ (d : Nat), ∀ e ∈ t.entries d, (e.1 : Int) ≤ d + t.height := by
  induction t with
  | nil => intro d e he; simp [entries] at he
  | node l v r hh s ihl ihr =>
    intro d e he
    obtain ⟨h1, h2, h3, -⟩ := h
    simp only [entries, List.mem_append, List.mem_cons] at he
    have hl : l.height + 1 ≤ hh := by rw [h3]; omega
    have hr : r.height + 1 ≤ hh := by rw [h3]; omega
    have hn : -1 ≤ l.height := by
      cases l with
      | nil => simp [height]
      | node => simp only [height]; have := ihl h1 0 (0, _) (by simp [entries]; tauto); simp only [height] at this; push_cast at this; omega
    simp only [height]
    rcases he with he | he | he
    · have := ihr h2 (d + 1) e he; push_cast at this; omega
    · subst he; dsimp only; omega
    · have := ihl h1 (d + 1) e he; push_cast at this; omega

end Avl

namespace Rb

/-- The values with their depths, from the largest to the smallest. -/
def Node.entries : Node F → Nat → List (Nat × F)
  | .nil, _ => []
  | .node l v r _ _, d => r.entries (d + 1) ++ (d, v) :: l.entries (d + 1)

theorem Node.entries_snd (t : Node F) (d : Nat) : (t.entries d).map Prod.snd = t.toList.reverse := by
  induction t generalizing d with
  | nil => rfl
  | node l v r h s ihl ihr => simp [entries, toList, ihl, ihr]

theorem Node.treeString_spec (fmt : F → List Char) (t : Node F) (ht : t.present = true) :
    ∀ (d : Nat) (pre result : List Char) (b : Bool), pre.length = 4 * d → (∀ c ∈ pre, c ∈ ['│', ' ', '└', '┌']) →
      ∃ s, t.treeString fmt pre result b = .val (result ++ s) ∧ TreeDrawing fmt (t.entries d) s := by
  induction t with
  | nil => simp [Node.present] at ht
  | node l v r h s ihl ihr =>
    intro d pre result b hp hp'
    have gen : ∀ (g : List Char) (result : List Char) (b : Bool) (t : Node F),
        (t.present = true → ∃ s, t.treeString fmt g result b = .val (result ++ s) ∧ TreeDrawing fmt (t.entries (d + 1)) s) →
        ∃ s, (if t.present then t.treeString fmt g result b else pure result) = Go.val (result ++ s) ∧
          TreeDrawing fmt (t.entries (d + 1)) s := by
      intro g result b t ht
      cases c : t.present with
      | true => simpa [c] using ht c
      | false =>
        cases t with
        | nil => exact ⟨[], by simp, treeDrawing_nil fmt⟩
        | node => simp [Node.present] at c
    have key : ∀ (g1 g2 c : List Char), (g1.length = 4 * (d + 1) ∧ ∀ c ∈ g1, c ∈ ['│', ' ', '└', '┌']) →
        (g2.length = 4 * (d + 1) ∧ ∀ c ∈ g2, c ∈ ['│', ' ', '└', '┌']) → (c = "└── ".toList ∨ c = "┌── ".toList) →
        ∃ str, ((if r.present then r.treeString fmt g1 result false else pure result) >>= fun result =>
          let result := result ++ pre ++ c ++ fmt v ++ "\n".toList
          if l.present then l.treeString fmt g2 result true else pure result) = Go.val (result ++ str) ∧
          TreeDrawing fmt ((node l v r h s).entries d) str := by
      intro g1 g2 c h1 h2 hc
      obtain ⟨s1, e1, q1⟩ := gen g1 result false r (fun c => ihr c (d + 1) g1 result false h1.1 h1.2)
      obtain ⟨s2, e2, q2⟩ := gen g2 (result ++ s1 ++ pre ++ c ++ fmt v ++ "\n".toList) true l
        (fun c => ihl c (d + 1) g2 _ true h2.1 h2.2)
      refine ⟨s1 ++ ((pre ++ c ++ fmt v ++ "\n".toList) ++ s2), ?_, ?_⟩
      · rw [e1]
        show (if l.present then _ else _) = _
        rw [e2]; simp [List.append_assoc]
      · have := treeDrawing_append q1 (treeDrawing_append (treeDrawing_one (v := v) hp hp' hc) q2)
        simpa [Node.entries] using this
    cases b with
    | true => exact key _ _ _ (pre_bar hp hp') (pre_gap hp hp') (.inl rfl)
    | false => exact key _ _ _ (pre_gap hp hp') (pre_bar hp hp') (.inr rfl)

theorem Node.string_spec (fmt : F → List Char) (t : Node F) :
    ∃ s, t.string fmt = .val s ∧ TreeDrawing fmt (t.entries 0) s := by
  cases c : t.present with
  | true =>
    obtain ⟨s, e, h⟩ := t.treeString_spec fmt c 0 [] [] true rfl (by simp)
    exact ⟨s, by simpa [Node.string, c] using e, h⟩
  | false =>
    cases t with
    | nil => exact ⟨[], rfl, treeDrawing_nil fmt⟩
    | node => simp [Node.present] at c

/-- What every tree that a history leads to satisfies, values removed while stored more than once included. -/
theorem Tree.run_weak [LinearOrder F] (ops : List (OSOp F)) (t : Tree F) (h : Tree.run ops = .val t) :
    Quant.RbRep (bag ops) t := by
  induction ops using List.reverseRecOn generalizing t with
  | nil => cases h; exact Quant.rbStat_weak.empty
  | append_singleton ops o ih =>
    rw [Tree.run, Go.runOps_append] at h
    rcases e1 : Go.runOps step (empty : Tree F) ops with u | _ | _
    rotate_left
    · rw [e1] at h; cases h
    · rw [e1] at h; cases h
    rw [e1] at h
    have e2 : Go.runOps step u [o] = .val t := h
    have hu := ih u e1
    have hb : bag (ops ++ [o]) = bagStep (bag ops) o := by simp [bag, List.foldl_append]
    rw [hb]
    have e2 : step u o = .val t := by
      simp only [Go.runOps] at e2
      revert e2
      cases step u o <;> simp
    cases o with
    | add x => exact Quant.rbStat_weak.add hu x e2
    | remove x => exact Quant.rbStat_weak.remove hu x e2
    | clear =>
      have : t = Tree.empty := by simpa [Tree.step, Tree.clear, eq_comm] using e2
      subst this
      exact Quant.rbStat_weak.empty

theorem Node.select_list [LinearOrder F] {t : Node F} (k : SizeOK t) :
    (List.range t.toList.length).map (fun i : Nat => t.select (i : Int)) = t.toList.map some := by
  apply List.ext_getElem
  · simp
  · intro i h1 h2
    simp at h1 h2
    simp [select_spec k, h2]

end Rb

namespace Skip

variable [LinearOrder F]

/-- One line, read off the list of nodes. -/
theorem stringLine_spec (fmt : F → List Char) {s : SkipList F} {A : List Nat} {V : Nat → F} (h : Links s A V)
    {i : Nat} (hE : ∀ X Y, 0 :: A = X ++ Y → (∀ a, Y.head? = some a → i < lv s a) → Cum s i X = X.length) :
    ∀ (f : Nat) (X : List Nat) (a : Nat) (Y : List Nat) (result : List Char), 0 :: A = X ++ a :: Y → i < lv s a → Y.length + 1 < f →
      s.stringLine fmt i f (some a) result = .val (result ++ s.nodeString fmt a ++
        Y.flatMap (fun b => '-' :: if decide (i < lv s b) then fmt (V b) else []) ++ "-tail\n".toList) := by
  intro f
  induction f with
  | zero => intro X a Y _ _ _ hf; omega
  | succ f ih =>
    intro X a Y result e ha hf
    have hn := h.link X a Y e i ha
    have hX := hE X (a :: Y) e (by simpa using ha)
    have low : ∀ Y1 : List Nat, (∀ b ∈ Y1, lv s b ≤ i) →
        Y1.flatMap (fun b => '-' :: if decide (i < lv s b) then fmt (V b) else []) = List.replicate Y1.length '-' := by
      intro Y1 h1
      induction Y1 with
      | nil => rfl
      | cons b Y1 ih =>
        have := h1 b (by simp)
        rw [List.flatMap_cons, ih (fun c hc => h1 c (by simp [hc])), List.length_cons, List.replicate_succ]
        simp [this]
    rcases hy : Y.find? (fun b => decide (i < lv s b)) with _ | b
    · have hY : ∀ b ∈ Y, lv s b ≤ i := by simpa using hy
      have hA := hE (X ++ a :: Y) [] (by simpa using e) (by simp)
      rw [Cum_append, Cum_cons, Cum_low hY, if_pos ha, hX] at hA
      have hw : wd s a i = Y.length + 1 := by simp at hA; omega
      rw [SkipList.stringLine, widthAt_ok ha, hw, nextAt_ok ha, hn, hy]
      simp only [Go.val_bind, dashes, show ¬ ((Y.length : Int) + 1 < 0) by omega, if_false]
      rw [SkipList.stringLine, low Y hY]
      have : ((Y.length : Int) + 1).toNat = Y.length + 1 := by omega
      rw [this, List.replicate_succ']
      cases f <;> simp
    · obtain ⟨Y1, Y2, e1, hb, hY1⟩ := find_some hy
      have e' : 0 :: A = (X ++ a :: Y1) ++ b :: Y2 := by rw [e, e1]; simp
      have hA := hE (X ++ a :: Y1) (b :: Y2) e' (by simpa using hb)
      rw [Cum_append, Cum_cons, Cum_low hY1, if_pos ha, hX] at hA
      have hw : wd s a i = Y1.length + 1 := by simp at hA; omega
      rw [SkipList.stringLine, widthAt_ok ha, hw, nextAt_ok ha, hn, hy]
      simp only [Go.val_bind, dashes, show ¬ ((Y1.length : Int) + 1 < 0) by omega, if_false]
      rw [ih (X ++ a :: Y1) b Y2 _ e' hb (by rw [e1] at hf; simp at hf; omega), e1, List.flatMap_append, low Y1 hY1,
        List.flatMap_cons]
      have : ((Y1.length : Int) + 1).toNat = Y1.length + 1 := by omega
      rw [this, List.replicate_succ']
      have hbA : b ∈ A := by
        have : b ∈ 0 :: A := by rw [e']; simp
        rcases List.mem_cons.1 this with rfl | hb'
        · have := h.nodup; rw [e'] at this
          cases X with
          | nil => simp at e'; obtain ⟨rfl, -⟩ := e'; simp at this
          | cons x X => simp at e'; obtain ⟨rfl, -⟩ := e'; simp at this
        · exact hb'
      have hv := h.vals b hbA
      simp only [vl] at hv
      simp [SkipList.nodeString, hv, hb]

theorem cum_zero {s : SkipList F} {A : List Nat} {V : Nat → F} (h : Inv s A V) :
    ∀ X Y, 0 :: A = X ++ Y → (∀ a, Y.head? = some a → 0 < lv s a) → Cum s 0 X = X.length := by
  intro X Y e _
  have : ∀ X : List Nat, (∀ a ∈ X, a ∈ 0 :: A) → Cum s 0 X = X.length := by
    intro X
    induction X with
    | nil => intro _; rfl
    | cons a X ih =>
      intro hX
      have ha := hX a (by simp)
      have hl : 0 < lv s a := by
        rcases List.mem_cons.1 ha with rfl | ha
        · rw [h.links.hl]; exact h.links.pos
        · exact (h.links.lvl a ha).1
      rw [Cum_cons, ih (fun b hb => hX b (by simp [hb])), if_pos hl, h.w0 a ha]
      simp; omega
  exact this X (fun a ha => by rw [e]; simp [ha])

omit [LinearOrder F] in
theorem nodeString_head (fmt : F → List Char) {s : SkipList F} (h : vl s 0 = none) : s.nodeString fmt 0 = "head".toList := by
  simp only [vl] at h
  simp [SkipList.nodeString, h]

/-- The marks of level `i`: which of the stored values are on it. -/
def marks (s : SkipList F) (A : List Nat) (V : Nat → F) (i : Nat) : List (F × Bool) := A.map (fun a => (V a, decide (i < lv s a)))

theorem stringDown_spec (fmt : F → List Char) {s : SkipList F} {A : List Nat} {V : Nat → F} (h : Links s A V) (hE : Exact s A) : ∀ (i : Nat) (result : List Char), i ≤ s.maxLevel →
      s.stringDown fmt i result = .val (result ++ ((List.range i).reverse.map (fun j => skipLine fmt (marks s A V j))).flatten) := by
  intro i
  induction i with
  | zero => intro result _; simp [SkipList.stringDown]
  | succ i ih =>
    intro result hi
    have hl := h.length_lt
    rw [SkipList.stringDown, stringLine_spec fmt h (fun X Y e hy => hE X Y e i (by omega) hy) (s.alloc + 1) [] 0 A result rfl
      (by rw [h.hl]; omega) (by omega), nodeString_head fmt h.head, Go.val_bind, ih _ (by omega), List.range_succ]
    simp [skipLine, marks, List.flatMap_map]

/-- Whatever the widths: if nothing panics, the last line lists all the values. -/
theorem stringDown_bottom (fmt : F → List Char) {s : SkipList F} {A : List Nat} {V : Nat → F} (h : Inv s A V) : ∀ (i : Nat) (result out : List Char), s.stringDown fmt (i + 1) result = .val out →
      ∃ pre, out = pre ++ skipBottom fmt (A.map V) := by
  intro i
  induction i with
  | zero =>
    intro result out e
    have hl := h.links.length_lt
    rw [SkipList.stringDown, stringLine_spec fmt h.links (cum_zero h) (s.alloc + 1) [] 0 A result rfl
      (by rw [h.links.hl]; exact h.links.pos) (by omega), nodeString_head fmt h.links.head, Go.val_bind, SkipList.stringDown] at e
    injection e with e
    refine ⟨result, ?_⟩
    rw [← e, skipBottom, List.flatMap_map]
    have : A.flatMap (fun b => '-' :: if decide (0 < lv s b) then fmt (V b) else []) = A.flatMap (fun a => '-' :: fmt (V a)) := by
      apply List.flatMap_congr
      intro a ha
      simp [(h.links.lvl a ha).1]
    rw [this]; simp
  | succ i ih =>
    intro result out e
    rw [SkipList.stringDown] at e
    rcases hs : s.stringLine fmt (i + 1) (s.alloc + 1) (some 0) result with r | _ | _
    · rw [hs, Go.val_bind] at e; exact ih r out e
    · rw [hs] at e; exact absurd e (by simp)
    · rw [hs] at e; exact absurd e (by simp)

end Skip
end Verif
