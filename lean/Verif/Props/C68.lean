import Verif.Klm.ChartDeriv
import Verif.Props.C67
/-!
# C68: the language-model feature of a derivation is the language-model score of its string

Rules are scored bottom-up, each seeing only the states of its antecedents.  `Deriv.yield`
and `Spec.Arpa.sentence` say what the result must be; neither mentions states.
-/

namespace Cdec.Klm.LM
open Feat

variable {K : Type} [AddCommGroup K] [DecidableEq K]

/-- The decoder adds the sentence markers: whatever the rules and in whatever order they
combine, the feature's value for a derivation of the string `ws` is the probability of
`ws </s>` after `<s>`. -/
theorem C68_derivation_score (a : Spec.Arpa K) (hr : a.Regular) (sign : Word → Bool)
    (F : Feat K) (hb : buildHashed a sign = some F.s) (d : Deriv) (hp : d.Proper) (ws : List Word)
    (hy : d.yield = ws.map Sym.word) (he : F.eosId ∉ ws) :
    F.score true d = some (a.sentence F.sosId (ws ++ [F.eosId])) := by
  rw [score_free (build_wf hr hb) d hp ws hy he, build_string hr hb]
  rfl

/-- The rules produce the sentence markers: the same, without penalties, when the string
produced is `<s> ws </s>`. -/
theorem C68_derivation_score_explicit (a : Spec.Arpa K) (hr : a.Regular) (sign : Word → Bool)
    (F : Feat K) (hb : buildHashed a sign = some F.s) (d : Deriv) (hp : d.Proper) (hn : d.NonEmpty)
    (ws : List Word) (hy : d.yield = .sos :: (ws ++ [F.eosId]).map Sym.word) (he : F.eosId ∉ ws)
    (hbo : ∀ c, a.backoff (F.eosId :: c) = 0) :
    F.score false d = some (a.sentence F.sosId (ws ++ [F.eosId])) := by
  rw [score_explicit (build_wf hr hb) d hp hn ws hy he
    (fun c => by rw [build_bo hr hb]; exact hbo c), build_string hr hb]
  rfl

/-- In particular two derivations of the same string get the same score. -/
theorem C68_same_string (a : Spec.Arpa K) (hr : a.Regular) (sign : Word → Bool)
    (F : Feat K) (hb : buildHashed a sign = some F.s) (d d' : Deriv) (hp : d.Proper)
    (hp' : d'.Proper) (ws : List Word) (hy : d.yield = ws.map Sym.word)
    (hy' : d'.yield = ws.map Sym.word) (he : F.eosId ∉ ws) :
    F.score true d = F.score true d' := by
  rw [C68_derivation_score a hr sign F hb d hp ws hy he,
    C68_derivation_score a hr sign F hb d' hp' ws hy' he]

/-- A derivation with two antecedents in inverted order, over `sampleArpa`. -/
def sampleDeriv : Deriv :=
  .node [.nt 1, .word 3, .nt 0] [.node [.word 3, .word 3] [], .node [.word 2] []]

example : ∃ F : Feat Int, buildHashed sampleArpa (fun _ => true) = some F.s ∧ F.sosId = 1 ∧
    F.eosId = 4 ∧ sampleDeriv.Proper ∧ sampleDeriv.yield = [2, 3, 3, 3].map Sym.word ∧
    F.eosId ∉ [2, 3, 3, 3] ∧ F.score true sampleDeriv = some (-19) := by
  obtain ⟨s, hs⟩ := sampleArpa_builds
  have hp : sampleDeriv.Proper := by
    simp only [sampleDeriv, Deriv.Proper, Deriv.Propers, idxs, and_true]
    decide
  have hy : sampleDeriv.yield = [2, 3, 3, 3].map Sym.word := by decide
  refine ⟨⟨s, 1, 4, -100⟩, hs, rfl, rfl, hp, hy, by show (4 : Nat) ∉ _; decide, ?_⟩
  rw [C68_derivation_score sampleArpa sampleArpa_regular _ ⟨s, 1, 4, -100⟩ hs _ hp _ hy
    (by show (4 : Nat) ∉ _; decide)]
  show some (sampleArpa.sentence 1 ([2, 3, 3, 3] ++ [4])) = _
  decide +kernel

/-- A derivation with explicit sentence markers. -/
def sampleDeriv2 : Deriv := .node [.nt 0, .word 3, .word 4] [.node [.sos, .word 2] []]

example : ∃ F : Feat Int, buildHashed sampleArpa (fun _ => true) = some F.s ∧
    sampleDeriv2.Proper ∧ sampleDeriv2.NonEmpty ∧
    sampleDeriv2.yield = .sos :: ([2, 3] ++ [F.eosId]).map Sym.word ∧
    (∀ c, sampleArpa.backoff (F.eosId :: c) = 0) ∧ F.score false sampleDeriv2 = some (-4) := by
  obtain ⟨s, hs⟩ := sampleArpa_builds
  have hp : sampleDeriv2.Proper := by
    simp only [sampleDeriv2, Deriv.Proper, Deriv.Propers, idxs, and_true]
    decide
  have hn : sampleDeriv2.NonEmpty := by
    simp [sampleDeriv2, Deriv.NonEmpty, Deriv.NonEmptys]
  have hy : sampleDeriv2.yield = .sos :: ([2, 3] ++ [4]).map Sym.word := by decide
  have hbo : ∀ c, sampleArpa.backoff (4 :: c) = 0 := by
    intro c
    match c with
    | [] => decide
    | [x] =>
      by_cases hx : x = 3
      · subst hx; decide
      · simp [Spec.Arpa.backoff, sampleArpa, Spec.Arpa.look, List.lookup]
        cases x == 3 <;> rfl
    | _ :: _ :: _ =>
      unfold Spec.Arpa.backoff
      rw [if_neg (by simp [sampleArpa])]
  refine ⟨⟨s, 1, 4, -100⟩, hs, hp, hn, hy, hbo, ?_⟩
  rw [C68_derivation_score_explicit sampleArpa sampleArpa_regular _ ⟨s, 1, 4, -100⟩ hs _ hp hn _ hy
    (by show (4 : Nat) ∉ _; decide) hbo]
  show some (sampleArpa.sentence 1 ([2, 3] ++ [4])) = _
  decide +kernel

end Cdec.Klm.LM
