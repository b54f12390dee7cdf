import Verif.Proofs.Ordinal

/-! # Quantile and HeapMedian of transformed data -/

set_option linter.unusedSectionVars false

namespace Verif
open Verif.Spec

/-- The operation with its value transformed. -/
def Spec.MOp.map {F G : Type} (φ : F → G) : MOp F → MOp G
  | .push x => .push (φ x)
  | .clear => .clear

/-- `φ` applied to the queued values. -/
def Ring.map {α β : Type} (φ : α → β) (r : Ring α) : Ring β := ⟨r.cap, r.items.map φ, r.disposed⟩

theorem Ring.len_map {α β : Type} (φ : α → β) (r : Ring α) : (r.map φ).len = r.len := List.length_map _

theorem Ring.put_map {α β : Type} (φ : α → β) (r : Ring α) (x : α) : (r.map φ).put (φ x) = (r.put x).image (Except.map (Ring.map φ)) := by
  unfold Ring.put
  refine Go.image_ite Iff.rfl rfl (Go.image_ite Iff.rfl rfl (Go.image_ite (by simp [Ring.map]) ?_ rfl))
  simp [Ring.map, Go.image, Except.map]

theorem Ring.get_map {α β : Type} (φ : α → β) (r : Ring α) : (r.map φ).get = r.get.image (Except.map (Prod.map φ (Ring.map φ))) := by
  rcases r with ⟨c, _ | ⟨x, xs⟩, d⟩
  · unfold Ring.get
    exact Go.image_ite Iff.rfl rfl (Go.image_ite Iff.rfl rfl rfl)
  · unfold Ring.get
    exact Go.image_ite Iff.rfl rfl rfl

theorem logged_image {σ τ F G : Type} {f : σ → τ} {φ : F → G} {step : σ → MOp F → Go (σ × Option Err)}
    {step' : τ → MOp G → Go (τ × Option Err)} (h : ∀ s x, step' (f s) (x.map φ) = (step s x).image (Prod.map f id)) (s : σ) (log : List Err)
    (ops : List (MOp F)) :
    Go.runOps (logged step') (f s, log) (ops.map (MOp.map φ)) = (Go.runOps (logged step) (s, log) ops).image (Prod.map f id) := by
  induction ops generalizing s log with
  | nil => rfl
  | cons o ops ih =>
    simp only [List.map_cons, Go.runOps, logged, h]
    cases step s o with
    | panic => rfl
    | hang => rfl
    | val r => exact ih r.1 _

variable {F G : Type} [GoOrd F] [GoOrd G] {φ : F → G}

namespace Quant

/-- `f` commutes with the operations of two containers. -/
structure StatMap (φ : F → G) (st : Statistic F) (st' : Statistic G) (f : st.σ → st'.σ) : Prop where
  empty : st'.empty = f st.empty
  size : ∀ s, st'.size (f s) = st.size s
  add : ∀ s x, st'.add (f s) (φ x) = (st.add s x).image f
  remove : ∀ s x, st'.remove (f s) (φ x) = (st.remove s x).image f
  select : ∀ s k, st'.select (f s) k = (st.select s k).image (Option.map φ)
  clear : ∀ s, st'.clear (f s) = f (st.clear s)

theorem avl_stat (hφ : OrdMap φ) : StatMap φ (avlStat F) (avlStat G) (fun t => ⟨t.root.map φ⟩) where
  empty := rfl
  size s := Avl.Node.size_map s.root
  add s x := Go.bind_image (Avl.Node.add_map hφ s.root x) fun _ => rfl
  remove s x := Go.bind_image (Avl.Node.remove_map hφ s.root x) fun _ => rfl
  select s k := congrArg Go.val (Avl.Node.select_map s.root k)
  clear _ := rfl

theorem rb_stat (hφ : OrdMap φ) : StatMap φ (rbStat F) (rbStat G) (fun t => ⟨t.root.map φ⟩) where
  empty := rfl
  size s := Rb.Node.size_map s.root
  add s x := Go.bind_image (Rb.Node.add_map hφ s.root x) fun _ => rfl
  remove s x := by
    refine Go.bind_image (f := Rb.Node.map φ) (m := s.root.remove (s.root.nodes + 1) x) ?_ fun _ => rfl
    show (s.root.map φ).remove ((s.root.map φ).nodes + 1) (φ x) = _
    rw [Rb.Node.nodes_map, Rb.Node.remove_map hφ]
  select s k := congrArg Go.val (Rb.Node.select_map s.root k)
  clear _ := rfl

theorem skip_stat (hφ : OrdMap φ) (n : Nat) (d : Nat → Nat → Bool) :
    StatMap φ (skipStat F n d) (skipStat G n d) (Skip.SkipList.map φ) where
  empty := rfl
  size _ := rfl
  add s x := Skip.SkipList.add_map hφ s x
  remove s x := Skip.SkipList.remove_map hφ s x
  select s k := Skip.SkipList.select_map s k
  clear s := Skip.SkipList.clear_map s

/-- Two configurations that differ in the number type only. -/
structure SameCfg (c : Cfg F) (c' : Cfg G) : Prop where
  window : c'.window = c.window
  impl : c'.impl = c.impl
  level : c'.skip.maxLevel = c.skip.maxLevel
  interpolation : c'.interpolation = c.interpolation

theorem statOf_map (hφ : OrdMap φ) {c : Cfg F} {c' : Cfg G} (h : SameCfg c c') (d : Nat → Nat → Bool) :
    ∃ f, StatMap φ (statOf c d) (statOf c' d) f := by
  by_cases h1 : c.impl = RedBlack
  · have e : statOf c d = rbStat F := if_pos h1
    have e' : statOf c' d = rbStat G := if_pos (h.impl.trans h1)
    rw [e, e']
    exact ⟨_, rb_stat hφ⟩
  · by_cases h2 : c.impl = SkipList
    · have e : statOf c d = skipStat F c.skip.maxLevel.toNat d := (if_neg h1).trans (if_pos h2)
      have e' : statOf c' d = skipStat G c.skip.maxLevel.toNat d := by
        rw [← h.level]; exact (if_neg (by rwa [h.impl])).trans (if_pos (h.impl.trans h2))
      rw [e, e']
      exact ⟨_, skip_stat hφ _ d⟩
    · have e : statOf c d = avlStat F := (if_neg h1).trans (if_neg h2)
      have e' : statOf c' d = avlStat G := (if_neg (by rwa [h.impl])).trans (if_neg (by rwa [h.impl]))
      rw [e, e']
      exact ⟨_, avl_stat hφ⟩

namespace Quantile
variable {st : Statistic F} {st' : Statistic G} {f : st.σ → st'.σ}

/-- The transformed metric. -/
def map (φ : F → G) (f : st.σ → st'.σ) (q : Quantile st) : Quantile st' := ⟨q.window, q.interpolation, q.queue.map φ, f q.statistic⟩

theorem add_map (S : StatMap φ st st' f) (x : F) (q : Quantile st) :
    push.add (φ x) (q.map φ f) = (push.add x q).image (Prod.map (map φ f) id) := by
  unfold push.add
  simp only [map, S.add]
  cases st.add q.statistic x <;> rfl

theorem put_map (S : StatMap φ st st' f) (x : F) (q : Quantile st) :
    push.put (φ x) (q.map φ f) = (push.put x q).image (Prod.map (map φ f) id) := by
  unfold push.put
  simp only [map, Ring.put_map]
  rcases q.queue.put x with (e | r) | _ | _
  · rfl
  · exact add_map S x { q with queue := r }
  · rfl
  · rfl

theorem push_map (S : StatMap φ st st' f) (q : Quantile st) (x : F) :
    (q.map φ f).push (φ x) = (q.push x).image (Prod.map (map φ f) id) := by
  unfold push
  refine Go.image_ite Iff.rfl (Go.image_ite (by simp only [map, Ring.len_map]) ?_ (put_map S x q)) (add_map S x q)
  simp only [map, Ring.get_map]
  rcases q.queue.get with (e | ⟨y, r⟩) | _ | _
  · rfl
  · simp only [Go.image, Except.map, Prod.map, S.remove]
    cases st.remove q.statistic y with
    | val s => exact put_map S x { q with queue := r, statistic := s }
    | panic => rfl
    | hang => rfl
  · rfl
  · rfl

theorem run_map (S : StatMap φ st st' f) (q : Quantile st) (ops : List (MOp F)) :
    (q.map φ f).run (ops.map (MOp.map φ)) = (q.run ops).image (Prod.map (map φ f) id) := by
  refine logged_image (fun q o => ?_) q [] ops
  cases o with
  | push x => exact push_map S q x
  | clear =>
    show Go.val _ = Go.val _
    simp only [map, clear, S.clear, Prod.map, id]
    rfl

theorem fresh_map (S : StatMap φ st st' f) (w i : Int) : fresh st' w i = (fresh st w i).map φ f := by
  simp only [fresh, map, S.empty]
  rfl

theorem sel_map (S : StatMap φ st st' f) (q : Quantile st) (k : Int) : (q.map φ f).sel k = (q.sel k).image φ := by
  simp only [sel, map, S.select]
  rcases st.select q.statistic k with (_ | v) | _ | _ <;> rfl

/-- What `Value` computes from two selected values, when it interpolates. -/
structure ArithMap (φ : F → G) (O : FOps F) (O' : FOps G) (p : F) (p' : G) (q : Quantile st) : Prop where
  zero : (p' ≤ᵇ O'.ofInt 0) = (p ≤ᵇ O.ofInt 0)
  one : (O'.ofInt 1 ≤ᵇ p') = (O.ofInt 1 ≤ᵇ p)
  whole : ¬ ((p ≤ᵇ O.ofInt 0) || (O.ofInt 1 ≤ᵇ p)) = true → st.size q.statistic ≠ 0 →
    let n := st.size q.statistic - 1
    let raw := O.mul p (O.ofInt n)
    let raw' := O'.mul p' (O'.ofInt n)
    (raw' =ᵇ O'.trunc raw') = (raw =ᵇ O.trunc raw) ∧ O'.toInt (O'.trunc raw') = O.toInt (O.trunc raw) ∧
      (¬ (raw =ᵇ O.trunc raw) = true →
        let d := O.sub raw (O.trunc raw)
        let d' := O'.sub raw' (O'.trunc raw')
        (q.interpolation = Nearest → (d' =ᵇ O'.div (O'.ofInt 1) (O'.ofInt 2)) = (d =ᵇ O.div (O.ofInt 1) (O.ofInt 2)) ∧
          (d' <ᵇ O'.div (O'.ofInt 1) (O'.ofInt 2)) = (d <ᵇ O.div (O.ofInt 1) (O.ofInt 2))) ∧
        ∀ lo hi, q.sel (O.toInt (O.trunc raw)) = .val lo → q.sel (O.toInt (O.trunc raw) + 1) = .val hi →
          (q.interpolation = Linear → O'.add (O'.mul (O'.sub (O'.ofInt 1) d') (φ lo)) (O'.mul d' (φ hi)) =
            φ (O.add (O.mul (O.sub (O.ofInt 1) d) lo) (O.mul d hi))) ∧
          (q.interpolation ≠ Linear → q.interpolation ≠ Lower → q.interpolation ≠ Higher → q.interpolation ≠ Nearest →
            O'.div (O'.add (φ lo) (φ hi)) (O'.ofInt 2) = φ (O.div (O.add lo hi) (O.ofInt 2))))

theorem sel_ok (S : StatMap φ st st' f) (q : Quantile st) (k : Int) :
    (do let v ← (q.map φ f).sel k; pure (Except.ok v) : Go (Except Err G)) =
      (do let v ← q.sel k; pure (Except.ok v) : Go (Except Err F)).image (Except.map φ) :=
  Go.bind_image (sel_map S q k) fun _ => rfl

theorem value_map (S : StatMap φ st st' f) {O : FOps F} {O' : FOps G} {p : F} {p' : G} {q : Quantile st} (A : ArithMap φ O O' p p' q) :
    (q.map φ f).value O' p' = (q.value O p).image (Except.map φ) := by
  unfold value
  by_cases h0 : ((p ≤ᵇ O.ofInt 0) || (O.ofInt 1 ≤ᵇ p)) = true
  · rw [if_pos h0, if_pos (by rw [A.zero, A.one]; exact h0)]
    rfl
  rw [if_neg h0, if_neg (by rw [A.zero, A.one]; exact h0)]
  have hs : st'.size (q.map φ f).statistic = st.size q.statistic := S.size _
  simp only [hs]
  by_cases h1 : st.size q.statistic = 0
  · rw [if_pos h1, if_pos h1]; rfl
  rw [if_neg h1, if_neg h1]
  obtain ⟨a1, a2, a3⟩ := A.whole h0 h1
  simp only at a1 a2 a3
  rw [a2]
  by_cases h2 : (O.mul p (O.ofInt (st.size q.statistic - 1)) =ᵇ O.trunc (O.mul p (O.ofInt (st.size q.statistic - 1)))) = true
  · rw [if_pos h2, if_pos (by rw [a1]; exact h2)]
    exact sel_ok S q _
  rw [if_neg h2, if_neg (by rw [a1]; exact h2)]
  obtain ⟨a4, a5⟩ := a3 h2
  have hi : (q.map φ f).interpolation = q.interpolation := rfl
  rw [hi]
  by_cases i1 : q.interpolation = Linear
  · rw [if_pos i1, if_pos i1, sel_map S, sel_map S]
    rcases e1 : q.sel (O.toInt (O.trunc (O.mul p (O.ofInt (st.size q.statistic - 1))))) with lo | _ | _
    · rcases e2 : q.sel (O.toInt (O.trunc (O.mul p (O.ofInt (st.size q.statistic - 1)))) + 1) with hi | _ | _
      · exact congrArg (fun z => Go.val (Except.ok z)) ((a5 lo hi e1 e2).1 i1)
      · rfl
      · rfl
    · rfl
    · rfl
  rw [if_neg i1, if_neg i1]
  by_cases i2 : q.interpolation = Lower
  · rw [if_pos i2, if_pos i2]; exact sel_ok S q _
  rw [if_neg i2, if_neg i2]
  by_cases i3 : q.interpolation = Higher
  · rw [if_pos i3, if_pos i3]; exact sel_ok S q _
  rw [if_neg i3, if_neg i3]
  by_cases i4 : q.interpolation = Nearest
  · rw [if_pos i4, if_pos i4]
    refine Go.image_ite (by rw [(a4 i4).1]) (Go.image_ite Iff.rfl (sel_ok S q _) (sel_ok S q _))
      (Go.image_ite (by rw [(a4 i4).2]) (sel_ok S q _) (sel_ok S q _))
  rw [if_neg i4, if_neg i4, sel_map S, sel_map S]
  rcases e1 : q.sel (O.toInt (O.trunc (O.mul p (O.ofInt (st.size q.statistic - 1))))) with lo | _ | _
  · rcases e2 : q.sel (O.toInt (O.trunc (O.mul p (O.ofInt (st.size q.statistic - 1)))) + 1) with hi | _ | _
    · exact congrArg (fun z => Go.val (Except.ok z)) ((a5 lo hi e1 e2).2 i1 i2 i3 i4)
    · rfl
    · rfl
  · rfl
  · rfl

end Quantile
end Quant
end Verif
