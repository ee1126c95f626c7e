import Verif.Decoder.Scfg
/-!
# C90: the grammars of a sentence

Over every history of uses of one decoder object.
-/
namespace Cdec.Dec.Scfg

namespace Spec

/-- The grammars that each sentence of a history should be translated with: those of the configuration, those supplied since the last sentence, those in its markup.
`pend` are supplied so far. -/
def sentences (base : List (Nat × Gr)) : List (Nat × Gr) → List Op → List (List (Nat × Gr))
  | _, [] => []
  | pend, .add p g :: os => sentences base (pend ++ [(p, g)]) os
  | pend, .addString p g :: os => sentences base (pend ++ [(p, g)]) os
  | pend, .decode gs :: os => (base ++ pend ++ gs) :: sentences base [] os

/-- What is supplied for the sentence after the history. -/
def pending : List (Nat × Gr) → List Op → List (Nat × Gr)
  | pend, [] => pend
  | pend, .add p g :: os => pending (pend ++ [(p, g)]) os
  | pend, .addString p g :: os => pending (pend ++ [(p, g)]) os
  | _, .decode _ :: os => pending [] os

/-- Between two sentences, at most the first thing supplied is the text of a grammar. -/
def TextFirst : Bool → List Op → Prop
  | _, [] => True
  | _, .add _ _ :: os => TextFirst false os
  | first, .addString _ _ :: os => first = true ∧ TextFirst false os
  | _, .decode _ :: os => TextFirst true os

/-- The objects supplied by an operation. -/
def objects : Op → List Nat
  | .add p _ => [p]
  | .addString p _ => [p]
  | .decode gs => gs.map (·.1)

/-- The grammars, except that the text of a grammar drops what was supplied before for the sentence. -/
def sentencesDrop (base : List (Nat × Gr)) : List (Nat × Gr) → List Op → List (List (Nat × Gr))
  | _, [] => []
  | pend, .add p g :: os => sentencesDrop base (pend ++ [(p, g)]) os
  | _, .addString p g :: os => sentencesDrop base [(p, g)] os
  | pend, .decode gs :: os => (base ++ pend ++ gs) :: sentencesDrop base [] os

/-- What is left for the next sentence, in the same way. -/
def pendingDrop : List (Nat × Gr) → List Op → List (Nat × Gr)
  | pend, [] => pend
  | pend, .add p g :: os => pendingDrop (pend ++ [(p, g)]) os
  | _, .addString p g :: os => pendingDrop [(p, g)] os
  | _, .decode _ :: os => pendingDrop [] os

end Spec
open Spec

/-- The state between operations. -/
structure Inv (base pend : List (Nat × Gr)) (s : State) : Prop where
  grammars : s.grammars = base ++ pend
  sup : ∀ p ∈ pend, p.1 ∈ s.sup
  base : ∀ p ∈ base, p.1 ∉ s.sup
  state : s.state = 0

theorem Inv.erased {base pend : List (Nat × Gr)} {s : State} (h : Inv base pend s) : s.erased = base := by
  unfold State.erased
  rw [h.grammars, List.filter_append, List.filter_eq_self.2, List.filter_eq_nil_iff.2, List.append_nil]
  · intro a ha; simpa using h.sup a ha
  · intro a ha; simpa using h.base a ha

theorem Inv.add {base pend : List (Nat × Gr)} {s : State} (h : Inv base pend s) {p : Nat} (hp : p ∉ base.map (·.1)) (g : Gr) : Inv base (pend ++ [(p, g)]) (s.add p g) where
  grammars := by simp [State.add, h.grammars]
  sup := by
    intro q hq
    rcases List.mem_append.1 hq with hq | hq
    · exact List.mem_cons_of_mem _ (h.sup q hq)
    · obtain rfl : q = (p, g) := by simpa using hq
      exact List.mem_cons_self
  base := by
    intro q hq hc
    rcases List.mem_cons.1 hc with rfl | hc
    · exact hp (List.mem_map.2 ⟨q, hq, rfl⟩)
    · exact h.base q hq hc
  state := h.state

theorem Inv.adds {base : List (Nat × Gr)} (gs : List (Nat × Gr)) : ∀ {pend : List (Nat × Gr)} {s : State}, Inv base pend s → (∀ g ∈ gs, g.1 ∉ base.map (·.1)) →
    Inv base (pend ++ gs) (gs.foldl (fun s g => s.add g.1 g.2) s) := by
  induction gs with
  | nil => intro pend s h _; simpa using h
  | cons g gs ih =>
    intro pend s h hg
    have := ih (h.add (hg g (by simp)) g.2) (fun x hx => hg x (by simp [hx]))
    simpa using this

theorem run_spec {base : List (Nat × Gr)} (os : List Op) : ∀ {pend : List (Nat × Gr)} {s : State}, Inv base pend s → (∀ o ∈ os, ∀ p ∈ objects o, p ∉ base.map (·.1)) →
    ∃ s', s.run os = some (s', sentencesDrop base pend os) ∧ Inv base (pendingDrop pend os) s' := by
  induction os with
  | nil => intro pend s h _; exact ⟨s, rfl, h⟩
  | cons o os ih =>
    intro pend s h ho
    have ho' : ∀ o ∈ os, ∀ p ∈ objects o, p ∉ base.map (·.1) := fun x hx => ho x (by simp [hx])
    cases o with
    | add p g =>
      obtain ⟨s', h1, h2⟩ := ih (h.add (ho (.add p g) (by simp) p (by simp [objects])) g) ho'
      exact ⟨s', by simp [State.run, State.op, h1, sentencesDrop], h2⟩
    | addString p g =>
      have h0 : Inv base [] (⟨s.erased, s.sup, s.state⟩ : State) := ⟨by simp [h.erased], by simp, h.base, h.state⟩
      obtain ⟨s', h1, h2⟩ := ih (h0.add (ho (.addString p g) (by simp) p (by simp [objects])) g) ho'
      rw [List.nil_append] at h1 h2
      refine ⟨s', ?_, h2⟩
      have e : s.op (.addString p g) = some (State.add ⟨s.erased, s.sup, s.state⟩ p g, []) := rfl
      rw [State.run, e]
      simp only [h1]
      rfl
    | decode gs =>
      have hg := h.adds gs (fun g hg => ho (.decode gs) (by simp) g.1 (by simp only [objects]; exact List.mem_map.2 ⟨g, hg, rfl⟩))
      obtain ⟨s1, hs1⟩ : ∃ s1, s1 = gs.foldl (fun s g => s.add g.1 g.2) s := ⟨_, rfl⟩
      rw [← hs1] at hg
      have hc : Inv base [] (State.complete ⟨s1.grammars, s1.sup, 2⟩) := by
        have : State.erased ⟨s1.grammars, s1.sup, 2⟩ = base := hg.erased
        exact ⟨by simp [State.complete, this], by simp, by simp [State.complete], rfl⟩
      obtain ⟨s', h1, h2⟩ := ih hc ho'
      refine ⟨s', ?_, h2⟩
      have e : s.op (.decode gs) = some (State.complete ⟨s1.grammars, s1.sup, 2⟩, [s1.grammars]) := by
        simp [State.op, State.hints, h.state, ← hs1]
      rw [State.run, e]
      simp only [h1]
      simp [hg.grammars, sentencesDrop]

theorem drop_eq {base : List (Nat × Gr)} (os : List Op) : ∀ {pend : List (Nat × Gr)} {b : Bool}, (b = true → pend = []) → TextFirst b os →
    sentencesDrop base pend os = sentences base pend os ∧ pendingDrop pend os = pending pend os := by
  induction os with
  | nil => intro pend b _ _; exact ⟨rfl, rfl⟩
  | cons o os ih =>
    intro pend b hb ht
    cases o with
    | add p g => exact ih (b := false) (by simp) ht
    | addString p g =>
      have := hb ht.1
      subst this
      exact ih (b := false) (by simp) ht.2
    | decode gs =>
      obtain ⟨h1, h2⟩ := ih (b := true) (pend := []) (by simp) ht
      exact ⟨by simp only [sentencesDrop, sentences, h1], h2⟩

/-- For every history of supplied grammars and sentences: the decoder never stops, each sentence is translated with the grammars of the configuration, those supplied
since the sentence before and those in its markup, in this order, and nothing else; after the history only the grammars of the configuration and those supplied since the
last sentence are there.  So no sentence affects the grammars of a later one.

Missing: it must be that the text of a grammar is given first for a sentence (`C90_string_fails`), and that no supplied object is an object of the configuration
(`C90_shared_fails`). -/
theorem C90_grammars_partial (base : List (Nat × Gr)) (os : List Op) (ht : TextFirst true os) (ho : ∀ o ∈ os, ∀ p ∈ objects o, p ∉ base.map (·.1)) :
    ∃ s, State.run ⟨base, [], 0⟩ os = some (s, sentences base [] os) ∧ s.grammars = base ++ pending [] os := by
  obtain ⟨s, h1, h2⟩ := run_spec os (s := ⟨base, [], 0⟩) (pend := []) ⟨by simp, by simp, by simp, rfl⟩ ho
  obtain ⟨e1, e2⟩ := drop_eq (base := base) os (b := true) (pend := []) (by simp) ht
  exact ⟨s, by rw [h1, e1], by rw [h2.grammars, e2]⟩

/-- What happens in every history: the text of a grammar drops everything that was supplied before it for the same sentence, and nothing else differs. -/
theorem C90_drop (base : List (Nat × Gr)) (os : List Op) (ho : ∀ o ∈ os, ∀ p ∈ objects o, p ∉ base.map (·.1)) :
    ∃ s, State.run ⟨base, [], 0⟩ os = some (s, sentencesDrop base [] os) ∧ s.grammars = base ++ pendingDrop [] os := by
  obtain ⟨s, h1, h2⟩ := run_spec os (s := ⟨base, [], 0⟩) (pend := []) ⟨by simp, by simp, by simp, rfl⟩ ho
  exact ⟨s, h1, h2.grammars⟩

/-- After the history of a sentence, whatever was supplied before, the grammars are those of the configuration. -/
theorem C90_restored (base : List (Nat × Gr)) (os : List Op) (gs : List (Nat × Gr)) (ho : ∀ o ∈ os ++ [.decode gs], ∀ p ∈ objects o, p ∉ base.map (·.1)) :
    ∃ s out, State.run ⟨base, [], 0⟩ (os ++ [.decode gs]) = some (s, out) ∧ s.grammars = base ∧ s.state = 0 := by
  obtain ⟨s, h1, h2⟩ := run_spec (os ++ [.decode gs]) (s := ⟨base, [], 0⟩) (pend := []) ⟨by simp, by simp, by simp, rfl⟩ ho
  refine ⟨s, _, h1, ?_, h2.state⟩
  rw [h2.grammars]
  have : ∀ (os : List Op) pend, pendingDrop pend (os ++ [.decode gs]) = [] := by
    intro os
    induction os with
    | nil => intro pend; rfl
    | cons o os ih => intro pend; cases o <;> exact ih _
  rw [this, List.append_nil]

/-- Two texts of grammars for a sentence: only the last one is used. -/
theorem C90_string_fails : ∃ (base : List (Nat × Gr)) (os : List Op) (s : State) (out : List (List (Nat × Gr))), (∀ o ∈ os, ∀ p ∈ objects o, p ∉ base.map (·.1)) ∧
    State.run ⟨base, [], 0⟩ os = some (s, out) ∧ out.map (·.map (·.1)) = [[0, 2]] ∧ (sentences base [] os).map (·.map (·.1)) = [[0, 1, 2]] :=
  ⟨[(0, ⟨.glue, []⟩)], [.addString 1 ⟨.pass, []⟩, .addString 2 ⟨.pass, []⟩, .decode []], _, _, by decide, rfl, by decide, by decide⟩

/-- Supplying a grammar object of the configuration removes it for the sentences after the next. -/
theorem C90_shared_fails : ∃ (base : List (Nat × Gr)) (os : List Op) (s : State) (out : List (List (Nat × Gr))), TextFirst true os ∧
    State.run ⟨base, [], 0⟩ os = some (s, out) ∧ out.map (·.map (·.1)) = [[0, 0], []] ∧ (sentences base [] os).map (·.map (·.1)) = [[0, 0], [0]] :=
  ⟨[(0, ⟨.glue, []⟩)], [.add 0 ⟨.glue, []⟩, .decode [], .decode []], _, _, by simp [TextFirst], rfl, by decide, by decide⟩

/-- A history that meets the hypotheses: text and object for the first sentence, markup for the second. -/
example : ∃ s, State.run ⟨[(0, ⟨.glue, []⟩)], [], 0⟩ [.addString 1 ⟨.pass, []⟩, .add 2 ⟨.pass, []⟩, .decode [], .decode [(3, ⟨.pass, []⟩)], .add 4 ⟨.pass, []⟩] =
      some (s, [[(0, ⟨.glue, []⟩), (1, ⟨.pass, []⟩), (2, ⟨.pass, []⟩)], [(0, ⟨.glue, []⟩), (3, ⟨.pass, []⟩)]]) ∧
    s.grammars = [(0, ⟨.glue, []⟩), (4, ⟨.pass, []⟩)] :=
  C90_grammars_partial [(0, ⟨.glue, []⟩)] _ (by simp [TextFirst]) (by decide)

end Cdec.Dec.Scfg
