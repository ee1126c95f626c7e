import Verif.Decoder.NgramFeatSpec
import Mathlib.Algebra.BigOperators.Group.List.Basic
import Mathlib.Tactic.Abel
import Mathlib.Data.List.Induction
/-!
# Lemmas about the n-gram features: the cache does not matter, and antecedents act like their words
-/
namespace Cdec.NgramFeat
variable {c : Cfg}

/-- Every cached id is that of its n-gram. -/
def Cache.Sound (c : Cfg) (k : Cache) : Prop := ∀ p, k p = 0 ∨ k p = c.fd (c.name p.reverse)

/-- `fireLoop` without the cache. -/
def pureLoop (c : Cfg) (path : List Nat) (cur : Nat) (rest : List Nat) (p : Feats) : Feats :=
  if cur = 0 then p
  else
    match rest with
    | [] => p.set (c.fd (c.name (path ++ [cur]).reverse)) 1
    | x :: xs => pureLoop c (path ++ [cur]) x xs (p.set (c.fd (c.name (path ++ [cur]).reverse)) 1)

def pureFire (c : Cfg) (state : List Nat) (cur : Nat) : Feats := pureLoop c [] cur state.reverse 0

theorem fireLoop_pure (rest : List Nat) : ∀ (path : List Nat) (cur : Nat) (k : Cache) (p : Feats), k.Sound c →
    (fireLoop c path cur rest k p).2 = pureLoop c path cur rest p ∧ (fireLoop c path cur rest k p).1.Sound c := by
  induction rest with
  | nil =>
    intro path cur k p hk
    unfold fireLoop pureLoop
    by_cases h : cur = 0
    · simp [h, hk]
    · simp only [h, if_false]
      have e : (if k (path ++ [cur]) = 0 then c.fd (c.name (path ++ [cur]).reverse) else k (path ++ [cur])) =
          c.fd (c.name (path ++ [cur]).reverse) := by
        rcases hk (path ++ [cur]) with h1 | h1
        · rw [if_pos h1]
        · split
          · rfl
          · exact h1
      rw [e]
      refine ⟨rfl, fun q => ?_⟩
      unfold Cache.set
      by_cases hq : q = path ++ [cur]
      · right; rw [hq]; simp
      · simp only [hq, if_false]; exact hk q
  | cons x xs ih =>
    intro path cur k p hk
    unfold fireLoop pureLoop
    by_cases h : cur = 0
    · simp [h, hk]
    · simp only [h, if_false]
      have e : (if k (path ++ [cur]) = 0 then c.fd (c.name (path ++ [cur]).reverse) else k (path ++ [cur])) =
          c.fd (c.name (path ++ [cur]).reverse) := by
        rcases hk (path ++ [cur]) with h1 | h1
        · rw [if_pos h1]
        · split
          · rfl
          · exact h1
      rw [e]
      apply ih
      intro q
      unfold Cache.set
      by_cases hq : q = path ++ [cur]
      · right; rw [hq]; simp
      · simp only [hq, if_false]; exact hk q

/-- `feed` without the cache. -/
def feedP (c : Cfg) (terminal : Bool) (v : Vars) (w : Nat) : Vars :=
  let mal := c.fd "Malformed"
  let (p, state, sawEos, numScored, complete) : Feats × List Nat × Bool × Nat × Bool :=
    if w = c.sos then
      if v.hist then (Feats.set 0 mal (if terminal then -100 else 1), beginState c, v.sawEos, v.numScored, true)
      else (0, beginState c, v.sawEos, c.order - 2, v.complete)
    else (if v.sawEos then (pureFire c v.state w).set mal 1 else pureFire c v.state w, extend c v.state w,
        decide (w = c.eos), v.numScored, v.complete)
  let numScored := numScored + 1
  let complete := if !complete && decide (numScored ≥ c.order) then true else complete
  if complete then ⟨state, numScored, v.unscored, sawEos, true, true, v.feats + p, v.est⟩
  else ⟨state, numScored, v.unscored ++ [w], sawEos, true, false, v.feats, v.est + p⟩

theorem feed_pure (t : Bool) (k : Cache) (v : Vars) (w : Nat) (hk : k.Sound c) :
    (feed c t k v w).2 = feedP c t v w ∧ (feed c t k v w).1.Sound c := by
  have hf := fireLoop_pure (c := c) v.state.reverse [] w k 0 hk
  unfold feed feedP
  by_cases hw : w = c.sos
  · simp only [hw, if_true]
    cases v.hist <;> cases v.complete <;> by_cases h1 : c.order - 2 + 1 ≥ c.order <;>
      by_cases h2 : v.numScored + 1 ≥ c.order <;> simp [h1, hk]
  · have h1 : (fire c v.state w k).2 = pureFire c v.state w := hf.1
    have h2 : (fire c v.state w k).1.Sound c := hf.2
    simp only [hw, if_false]
    rw [h1]
    cases v.complete <;> by_cases h3 : v.numScored + 1 ≥ c.order <;> simp [h2, h3]

def feedsP (c : Cfg) (v : Vars) : List Nat → Vars
  | [] => v
  | w :: ws => feedsP c (feedP c false v w) ws

theorem feeds_pure (ws : List Nat) : ∀ (k : Cache) (v : Vars), k.Sound c →
    (feeds c k v ws).2 = feedsP c v ws ∧ (feeds c k v ws).1.Sound c := by
  induction ws with
  | nil => intro k v hk; exact ⟨rfl, hk⟩
  | cons w ws ih =>
    intro k v hk
    have h := feed_pure (c := c) false k v w hk
    have h2 := ih (feed c false k v w).1 (feed c false k v w).2 h.2
    unfold feeds feedsP
    rw [← h.1]
    exact h2

def loopP (c : Cfg) (ants : List NState) (v : Vars) : List Sym → Option Vars
  | [] => some v
  | .word w :: e => loopP c ants (feedP c true v (c.cluster w)) e
  | .nt i :: e =>
    match ants[i]? with
    | none => none
    | some a => loopP c ants (absorb (feedsP c v a.unscored) a) e

theorem lookupLoop_pure (ants : List NState) (e : List Sym) : ∀ (k : Cache) (v : Vars) (v' : Vars), k.Sound c →
    loopP c ants v e = some v' → ∃ k', lookupLoop c ants k v e = some (k', v') ∧ k'.Sound c := by
  induction e with
  | nil => intro k v v' hk h; simp only [loopP, Option.some.injEq] at h; subst h; exact ⟨k, rfl, hk⟩
  | cons s e ih =>
    intro k v v' hk h
    cases s with
    | word w =>
      have hf := feed_pure (c := c) true k v (c.cluster w) hk
      unfold lookupLoop
      unfold loopP at h
      rw [← hf.1] at h
      exact ih _ _ _ hf.2 h
    | nt i =>
      unfold lookupLoop
      unfold loopP at h
      cases ha : ants[i]? with
      | none => rw [ha] at h; cases h
      | some a =>
        rw [ha] at h
        have hf := feeds_pure (c := c) a.unscored k v hk
        simp only at h ⊢
        rw [← hf.1] at h
        exact ih _ _ _ hf.2 h

/-! ### Feeding -/

theorem feedP_sos (t : Bool) (v : Vars) (hh : v.hist = false) :
    feedP c t v c.sos = (if v.complete || decide (c.order - 2 + 1 ≥ c.order)
      then ⟨beginState c, c.order - 2 + 1, v.unscored, v.sawEos, true, true, v.feats, v.est⟩
      else ⟨beginState c, c.order - 2 + 1, v.unscored ++ [c.sos], v.sawEos, true, false, v.feats, v.est⟩) := by
  unfold feedP
  simp only [if_true, hh, Bool.false_eq_true, if_false, add_zero]
  cases hc : v.complete <;> by_cases h : c.order - 2 + 1 ≥ c.order <;> simp [h]

theorem feedP_word (t : Bool) (v : Vars) (w : Nat) (hw : w ≠ c.sos) (hs : v.sawEos = false) :
    feedP c t v w = (if v.complete || decide (v.numScored + 1 ≥ c.order)
      then ⟨extend c v.state w, v.numScored + 1, v.unscored, decide (w = c.eos), true, true,
        v.feats + pureFire c v.state w, v.est⟩
      else ⟨extend c v.state w, v.numScored + 1, v.unscored ++ [w], decide (w = c.eos), true, false, v.feats,
        v.est + pureFire c v.state w⟩) := by
  unfold feedP
  simp only [hw, hs, Bool.false_eq_true, if_false]
  cases hc : v.complete <;> by_cases h : v.numScored + 1 ≥ c.order <;> simp [h]

theorem feedsP_append (a b : List Nat) : ∀ v : Vars, feedsP c v (a ++ b) = feedsP c (feedsP c v a) b := by
  induction a with
  | nil => intro v; rfl
  | cons w a ih => intro v; exact ih _

/-- All words of `pre`, from the start. -/
def run (c : Cfg) (pre : List Nat) : Vars := feedsP c (start c) pre

theorem run_snoc (pre : List Nat) (w : Nat) : run c (pre ++ [w]) = feedP c false (run c pre) w := by
  unfold run; rw [feedsP_append]; rfl

/-- The markers are where they may be. -/
def Good (c : Cfg) (y : List Nat) : Prop := (∀ a b, y = a ++ c.sos :: b → a = []) ∧ ∀ a b, y = a ++ c.eos :: b → b = []

theorem Good.left {a b : List Nat} (h : Good c (a ++ b)) : Good c a :=
  ⟨fun x y e => h.1 x (y ++ b) (by simp [e]), fun x y e => by
    have := h.2 x (y ++ b) (by simp [e])
    exact (List.append_eq_nil_iff.1 this).1⟩

theorem Good.right {a b : List Nat} (h : Good c (a ++ b)) : Good c b :=
  ⟨fun x y e => by
    have := h.1 (a ++ x) y (by simp [e])
    exact (List.append_eq_nil_iff.1 this).2, fun x y e => h.2 (a ++ x) y (by simp [e])⟩

theorem Good.no_eos {pre : List Nat} {w : Nat} {b : List Nat} (h : Good c (pre ++ w :: b)) : c.eos ∉ pre := by
  intro hm
  obtain ⟨x, y, e⟩ := List.append_of_mem hm
  have := h.2 x (y ++ w :: b) (by rw [e]; simp)
  simp at this

theorem Good.no_sos {w : Nat} {pre b : List Nat} (h : Good c (w :: pre ++ b)) : c.sos ∉ b := by
  intro hm
  obtain ⟨x, y, e⟩ := List.append_of_mem hm
  have := h.1 (w :: pre ++ x) y (by rw [e]; simp)
  simp at this

/-- The variables `L` agree with feeding `pre` word by word; `K` are the features counted below. -/
structure Sim (c : Cfg) (pre : List Nat) (L : Vars) (K : Feats) : Prop where
  state : L.state = (run c pre).state
  unscored : L.unscored = (run c pre).unscored
  complete : L.complete = (run c pre).complete
  num : (run c pre).complete = false → L.numScored = (run c pre).numScored
  lt : L.complete = false → L.numScored < c.order
  feats : L.feats + K = (run c pre).feats
  hist : L.hist = true → pre ≠ []
  eos : L.sawEos = true → c.eos ∈ pre

theorem sim_feed {pre : List Nat} {L : Vars} {K : Feats} (t : Bool) (w : Nat) (hs : Sim c pre L K)
    (hr : Sim c pre (run c pre) 0) (hg : Good c (pre ++ [w])) : Sim c (pre ++ [w]) (feedP c t L w) K := by
  have hne := hg.no_eos
  have hLe : L.sawEos = false := by
    cases h : L.sawEos with
    | false => rfl
    | true => exact absurd (hs.eos h) hne
  have hRe : (run c pre).sawEos = false := by
    cases h : (run c pre).sawEos with
    | false => rfl
    | true => exact absurd (hr.eos h) hne
  by_cases hw : w = c.sos
  · subst hw
    have hp : pre = [] := hg.1 pre [] rfl
    have hLh : L.hist = false := by
      cases h : L.hist with
      | false => rfl
      | true => exact absurd hp (hs.hist h)
    have hRh : (run c pre).hist = false := by
      cases h : (run c pre).hist with
      | false => rfl
      | true => exact absurd hp (hr.hist h)
    have e1 := feedP_sos (c := c) t L hLh
    have e2 := run_snoc (c := c) pre c.sos
    rw [feedP_sos false _ hRh] at e2
    rw [hs.complete] at e1
    have hf := hs.feats
    cases hc : ((run c pre).complete || decide (c.order - 2 + 1 ≥ c.order)) with
    | true =>
      rw [hc] at e1 e2
      simp only [if_true] at e1 e2
      constructor
      · rw [e1, e2]
      · rw [e1, e2]; exact hs.unscored
      · rw [e1, e2]
      · rw [e2]; simp
      · rw [e1]; simp
      · rw [e1, e2]; exact hf
      · simp
      · rw [e1]; simp [hLe]
    | false =>
      rw [hc] at e1 e2
      simp only [Bool.false_eq_true, if_false] at e1 e2
      simp only [Bool.or_eq_false_iff, decide_eq_false_iff_not] at hc
      constructor
      · rw [e1, e2]
      · rw [e1, e2]; simp [hs.unscored]
      · rw [e1, e2]
      · rw [e1, e2]; simp
      · rw [e1]; intro _; show c.order - 2 + 1 < c.order; omega
      · rw [e1, e2]; exact hf
      · simp
      · rw [e1]; simp [hLe]
  · have e1 := feedP_word (c := c) t L w hw hLe
    have e2 := run_snoc (c := c) pre w
    rw [feedP_word false _ w hw hRe] at e2
    have hcond : (L.complete || decide (L.numScored + 1 ≥ c.order)) =
        ((run c pre).complete || decide ((run c pre).numScored + 1 ≥ c.order)) := by
      rw [hs.complete]
      cases h : (run c pre).complete with
      | true => rfl
      | false => rw [hs.num h]
    rw [hcond, hs.state] at e1
    have hf := hs.feats
    cases hc : ((run c pre).complete || decide ((run c pre).numScored + 1 ≥ c.order)) with
    | true =>
      rw [hc] at e1 e2
      simp only [if_true] at e1 e2
      constructor
      · rw [e1, e2]
      · rw [e1, e2]; exact hs.unscored
      · rw [e1, e2]
      · rw [e2]; simp
      · rw [e1]; simp
      · rw [e1, e2]; simp only; rw [← hf]; abel
      · simp
      · rw [e1]; simp only [decide_eq_true_eq]; intro h; simp [h]
    | false =>
      rw [hc] at e1 e2
      simp only [Bool.false_eq_true, if_false] at e1 e2
      simp only [Bool.or_eq_false_iff, decide_eq_false_iff_not] at hc
      have hn := hs.num hc.1
      constructor
      · rw [e1, e2]
      · rw [e1, e2]; simp [hs.unscored]
      · rw [e1, e2]
      · rw [e1, e2]; simp only [forall_const]; rw [hn]
      · rw [e1]; intro _; show L.numScored + 1 < c.order; rw [hn]; omega
      · rw [e1, e2]; exact hf
      · simp
      · rw [e1]; simp only [decide_eq_true_eq]; intro h; simp [h]

theorem sim_start (ho : 1 ≤ c.order) : Sim c [] (start c) 0 :=
  ⟨rfl, rfl, rfl, fun _ => rfl, fun _ => ho, by simp [run, feedsP], by simp [NgramFeat.start], by simp [NgramFeat.start]⟩

theorem sim_run (ho : 1 ≤ c.order) (pre : List Nat) : Good c pre → Sim c pre (run c pre) 0 := by
  induction pre using List.reverseRecOn with
  | nil => intro _; exact sim_start ho
  | append_singleton pre w ih =>
    intro hg
    have h := ih hg.left
    rw [run_snoc]
    exact sim_feed false w h h hg

theorem sim_feeds (ho : 1 ≤ c.order) (ws : List Nat) : ∀ {pre : List Nat} {L : Vars} {K : Feats}, Sim c pre L K →
    Good c (pre ++ ws) → Sim c (pre ++ ws) (feedsP c L ws) K := by
  induction ws with
  | nil => intro pre L K h _; simpa [feedsP] using h
  | cons w ws ih =>
    intro pre L K h hg
    have e : pre ++ w :: ws = (pre ++ [w]) ++ ws := by simp
    rw [e] at hg ⊢
    exact ih (sim_feed false w h (sim_run ho pre hg.left.left) hg.left) hg

/-! ### Once complete -/

/-- The context and the features of `v` after a state. -/
def incr (c : Cfg) (s : List Nat) : List Nat → List Nat × Feats
  | [] => (s, 0)
  | w :: ws => ((incr c (extend c s w) ws).1, pureFire c s w + (incr c (extend c s w) ws).2)

theorem incr_append (a b : List Nat) : ∀ s, incr c s (a ++ b) =
    ((incr c (incr c s a).1 b).1, (incr c s a).2 + (incr c (incr c s a).1 b).2) := by
  induction a with
  | nil => intro s; simp [incr]
  | cons w a ih => intro s; simp only [List.cons_append, incr, ih]; rw [add_assoc]

def Ready (c : Cfg) (v : Vars) : Prop := v.complete = true ∨ v.numScored + 1 ≥ c.order

theorem feedsP_ready (ws : List Nat) : ∀ (v : Vars), Ready c v → v.sawEos = false → c.sos ∉ ws →
    (∀ a b, ws = a ++ c.eos :: b → b = []) →
    (feedsP c v ws).state = (incr c v.state ws).1 ∧ (feedsP c v ws).feats = v.feats + (incr c v.state ws).2 ∧
    (feedsP c v ws).unscored = v.unscored ∧ (ws ≠ [] → (feedsP c v ws).complete = true) ∧
    ((feedsP c v ws).sawEos = true → c.eos ∈ ws) ∧ Ready c (feedsP c v ws) := by
  induction ws with
  | nil => intro v hr he _ _; simp [feedsP, incr, he, hr]
  | cons w ws ih =>
    intro v hr he hs hb
    simp only [List.mem_cons, not_or] at hs
    have hcond : (v.complete || decide (v.numScored + 1 ≥ c.order)) = true := by
      rcases hr with h | h
      · simp [h]
      · simp [h]
    have e := feedP_word (c := c) false v w (Ne.symm hs.1) he
    rw [hcond, if_pos rfl] at e
    by_cases hw : ws = []
    · subst hw
      unfold feedsP feedsP incr incr
      rw [e]
      simp [Ready, eq_comm]
    · have hwe : w ≠ c.eos := fun h => hw (hb [] ws (by rw [h]; rfl))
      have hb' : ∀ a b, ws = a ++ c.eos :: b → b = [] := fun a b h => hb (w :: a) b (by rw [h]; rfl)
      have h := ih (feedP c false v w) (by rw [e]; exact Or.inl rfl) (by rw [e]; simp [hwe]) hs.2 hb'
      unfold feedsP incr
      obtain ⟨h1, h2, h3, h4, h5, h6⟩ := h
      refine ⟨?_, ?_, ?_, fun _ => h4 hw, fun hx => List.mem_cons_of_mem _ (h5 hx), h6⟩
      · rw [h1, e]
      · rw [h2, e]; exact add_assoc _ _ _
      · rw [h3, e]

theorem incr_len (ws : List Nat) : ∀ s : List Nat, s.length = c.order - 1 → (incr c s ws).1.length = c.order - 1 := by
  induction ws with
  | nil => intro s h; exact h
  | cons w ws ih =>
    intro s h
    apply ih
    unfold extend
    split
    · simp; omega
    · simp [h]; omega

/-- After `order - 1` words the context is these words. -/
theorem incr_drop (ws : List Nat) : ∀ s : List Nat, s.length = c.order - 1 →
    (incr c s ws).1 = (s ++ ws).drop ws.length := by
  induction ws with
  | nil => intro s _; simp [incr]
  | cons w ws ih =>
    intro s h
    unfold incr
    unfold extend
    by_cases ho : c.order - 1 = 0
    · rw [if_pos ho]
      rw [ho] at h
      have hs := List.length_eq_zero_iff.1 h
      subst hs
      rw [ih [] (by simp [ho])]
      simp
    · rw [if_neg ho, ih _ (by simp [h]; omega)]
      cases s with
      | nil => simp at h; omega
      | cons x s => simp

theorem incr_full (ws : List Nat) (s : List Nat) (h : s.length = c.order - 1) (hw : ws.length = c.order - 1) :
    (incr c s ws).1 = ws := by
  rw [incr_drop ws s h, hw, ← h, List.drop_left]

/-- The state after words other than `<s>`. -/
theorem feedsP_state (ws : List Nat) : ∀ v : Vars, c.sos ∉ ws → (feedsP c v ws).state = (incr c v.state ws).1 ∧
    (feedsP c v ws).numScored = v.numScored + ws.length := by
  induction ws with
  | nil => intro v _; exact ⟨rfl, rfl⟩
  | cons w ws ih =>
    intro v hs
    simp only [List.mem_cons, not_or] at hs
    have e : (feedP c false v w).state = extend c v.state w ∧ (feedP c false v w).numScored = v.numScored + 1 := by
      unfold feedP
      simp only [Ne.symm hs.1, if_false]
      cases v.complete <;> by_cases h3 : v.numScored + 1 ≥ c.order <;> simp [h3]
    obtain ⟨h1, h2⟩ := ih (feedP c false v w) hs.2
    unfold feedsP incr
    rw [h1, h2, e.1, e.2]
    refine ⟨rfl, ?_⟩
    simp only [List.length_cons]; omega

theorem start_len : (start c).state.length = c.order - 1 := by simp [start]
theorem begin_len (ho : 1 ≤ c.order) : (beginState c).length = c.order - 1 := by
  unfold beginState; split <;> simp <;> omega

/-- The words that are not scored yet, and where the others begin. -/
theorem run_split (ho : 1 ≤ c.order) (y : List Nat) : Good c y →
    ((run c y).complete = false → (run c y).unscored = y ∧ (run c y).feats = 0) ∧
    ((run c y).complete = true → ∃ u v, y = u ++ v ∧ v ≠ [] ∧ (run c y).unscored = u ∧
      (run c u).complete = false ∧ Ready c (run c u)) := by
  induction y using List.reverseRecOn with
  | nil => intro _; simp [run, feedsP, start]
  | append_singleton y w ih =>
    intro hg
    have hr := sim_run ho y hg.left
    have hre : (run c y).sawEos = false := by
      cases h : (run c y).sawEos with
      | false => rfl
      | true => exact absurd (hr.eos h) hg.no_eos
    obtain ⟨i1, i2⟩ := ih hg.left
    by_cases hw : w = c.sos
    · subst hw
      have hp : y = [] := hg.1 y [] rfl
      subst hp
      have e := run_snoc (c := c) [] c.sos
      rw [feedP_sos false _ (by rfl)] at e
      have h0 : (run c []).complete = false := rfl
      rw [h0] at e
      by_cases h1 : c.order - 2 + 1 ≥ c.order
      · simp only [h1, decide_true, Bool.or_true, if_true] at e
        refine ⟨fun h => (by rw [e] at h; simp at h), fun _ => ⟨[], [c.sos], rfl, by simp, by rw [e]; rfl, rfl, Or.inr ?_⟩⟩
        show 0 + 1 ≥ c.order
        omega
      · simp only [h1, decide_false, Bool.or_self, Bool.false_eq_true, if_false] at e
        refine ⟨fun _ => ?_, fun h => (by rw [e] at h; simp at h)⟩
        rw [e]
        exact ⟨rfl, rfl⟩
    · have e := run_snoc (c := c) y w
      rw [feedP_word false _ w hw hre] at e
      cases hc : (run c y).complete with
      | true =>
        rw [hc] at e
        simp only [Bool.true_or, if_true] at e
        refine ⟨fun h => (by rw [e] at h; simp at h), fun _ => ?_⟩
        obtain ⟨u, v, h1, h2, h3, h4, h5⟩ := i2 hc
        exact ⟨u, v ++ [w], by rw [h1]; simp, by simp, by rw [e]; exact h3, h4, h5⟩
      | false =>
        obtain ⟨j1, j2⟩ := i1 hc
        rw [hc] at e
        by_cases hn : (run c y).numScored + 1 ≥ c.order
        · simp only [hn, decide_true, Bool.or_true, if_true] at e
          refine ⟨fun h => (by rw [e] at h; simp at h), fun _ => ⟨y, [w], rfl, by simp, ?_, hc, Or.inr hn⟩⟩
          rw [e]; exact j1
        · simp only [hn, decide_false, Bool.or_self, Bool.false_eq_true, if_false] at e
          refine ⟨fun _ => ?_, fun h => (by rw [e] at h; simp at h)⟩
          rw [e]
          exact ⟨by simp [j1], j2⟩

/-- What a derivation of `y` leaves behind, and its features. -/
structure Out (c : Cfg) (y : List Nat) (s : NState) (T : Feats) : Prop where
  lm : s.lm = (run c y).state
  unscored : s.unscored = (run c y).unscored
  full : s.full = (run c y).complete
  eos : s.eos = true → c.eos ∈ y
  feats : T = (run c y).feats

theorem Good.eos_last {y : List Nat} (h : Good c y) : ∀ a b, y = a ++ c.eos :: b → b = [] := h.2

theorem not_eos {pre : List Nat} {L : Vars} {K : Feats} (h : Sim c pre L K) (hn : c.eos ∉ pre) : L.sawEos = false := by
  cases hx : L.sawEos with
  | false => rfl
  | true => exact absurd (h.eos hx) hn

/-- An antecedent acts like its words. -/
theorem sim_absorb (ho : 1 ≤ c.order) {pre y : List Nat} {L : Vars} {K T : Feats} {a : NState} (h : Sim c pre L K)
    (ha : Out c y a T) (hg : Good c (pre ++ y)) :
    Sim c (pre ++ y) (NgramFeat.absorb (feedsP c L a.unscored) a) (K + T) := by
  obtain ⟨s1, s2⟩ := run_split ho y hg.right
  cases hc : (run c y).complete with
  | false =>
    obtain ⟨j1, j2⟩ := s1 hc
    have hf : a.full = false := by rw [ha.full, hc]
    have hT : T = 0 := by rw [ha.feats, j2]
    have hS := sim_feeds ho y h hg
    unfold NgramFeat.absorb
    rw [ha.unscored, j1, hf, hT]
    simp only [Bool.false_eq_true, if_false, add_zero]
    exact ⟨hS.state, hS.unscored, hS.complete, hS.num, hS.lt, hS.feats, hS.hist,
      fun hx => List.mem_append_right _ (ha.eos hx)⟩
  | true =>
    obtain ⟨u, v, e, hv, hu, hnc, hrd⟩ := s2 hc
    have hf : a.full = true := by rw [ha.full, hc]
    have hgu : Good c (pre ++ u) := by
      rw [e, ← List.append_assoc] at hg
      exact hg.left
    have hS := sim_feeds ho u h hgu
    have key : (run c (pre ++ y)).state = (run c y).state ∧ (run c (pre ++ y)).unscored = (run c (pre ++ u)).unscored ∧
        (run c (pre ++ y)).complete = true ∧ (run c (pre ++ y)).feats = (run c (pre ++ u)).feats + (run c y).feats := by
      cases pre with
      | nil =>
        refine ⟨rfl, ?_, hc, ?_⟩
        · simp only [List.nil_append]; rw [hu, ((run_split ho u hgu).1 hnc).1]
        · simp only [List.nil_append]; rw [((run_split ho u hgu).1 hnc).2, zero_add]
      | cons p pre =>
        have hsy : c.sos ∉ y := hg.no_sos
        have hsu : c.sos ∉ u := fun hm => hsy (by rw [e]; exact List.mem_append_left _ hm)
        have hsv : c.sos ∉ v := fun hm => hsy (by rw [e]; exact List.mem_append_right _ hm)
        obtain ⟨v0, vs, rfl⟩ := List.exists_cons_of_ne_nil hv
        have hgy := hg.right
        have heu : c.eos ∉ u := by rw [e] at hgy; exact hgy.no_eos
        have hepu : c.eos ∉ (p :: pre) ++ u := by
          have := hg
          rw [e, ← List.append_assoc] at this
          exact this.no_eos
        have hev : ∀ x z, v0 :: vs = x ++ c.eos :: z → z = [] := fun x z hh => hgy.2 (u ++ x) z (by rw [e, hh]; simp)
        have r1 := sim_run ho u (by rw [e] at hgy; exact hgy.left)
        have r2 := sim_run ho ((p :: pre) ++ u) hgu
        have n1 : (run c u).numScored = u.length := by
          have := (feedsP_state (c := c) u (NgramFeat.start c) hsu).2
          simpa [run, NgramFeat.start] using this
        have hlen : u.length = c.order - 1 := by
          have h1 := r1.lt hnc
          rcases hrd with h2 | h2
          · rw [hnc] at h2; cases h2
          · omega
        have st1 : (run c u).state = u := by
          have := (feedsP_state (c := c) u (NgramFeat.start c) hsu).1
          unfold run
          rw [this]
          exact incr_full u _ start_len hlen
        have lenpre : (run c (p :: pre)).state.length = c.order - 1 := by
          have hgp : Good c ([p] ++ pre) := hg.left
          have h1 : (run c [p]).state.length = c.order - 1 := by
            by_cases hp : p = c.sos
            · have := run_snoc (c := c) [] p
              rw [hp, feedP_sos false _ (by rfl)] at this
              simp only [List.nil_append] at this
              rw [hp, this]
              split <;> exact begin_len ho
            · have := (feedsP_state (c := c) [p] (NgramFeat.start c) (by simpa using Ne.symm hp)).1
              unfold run
              rw [this]
              exact incr_len _ _ start_len
          have hsp : c.sos ∉ pre := by
            have h3 : Good c (p :: [] ++ pre) := hgp
            exact h3.no_sos
          have := (feedsP_state (c := c) pre (run c [p]) hsp).1
          have h2 : run c (p :: pre) = feedsP c (run c [p]) pre := by
            unfold run; rw [← feedsP_append]; rfl
          rw [h2, this]
          exact incr_len _ _ h1
        have st2 : (run c ((p :: pre) ++ u)).state = u := by
          have h2 : run c ((p :: pre) ++ u) = feedsP c (run c (p :: pre)) u := by
            unfold run; rw [← feedsP_append]
          rw [h2, (feedsP_state (c := c) u _ hsu).1]
          exact incr_full u _ lenpre hlen
        have rd2 : Ready c (run c ((p :: pre) ++ u)) := by
          have h2 : run c ((p :: pre) ++ u) = feedsP c (run c (p :: pre)) u := by
            unfold run; rw [← feedsP_append]
          right
          rw [h2, (feedsP_state (c := c) u _ hsu).2, hlen]
          omega
        have q1 := feedsP_ready (c := c) (v0 :: vs) (run c u) hrd (not_eos r1 heu) hsv hev
        have q2 := feedsP_ready (c := c) (v0 :: vs) (run c ((p :: pre) ++ u)) rd2 (not_eos r2 hepu) hsv hev
        have e1 : run c y = feedsP c (run c u) (v0 :: vs) := by rw [e]; unfold run; rw [feedsP_append]
        have e2 : run c ((p :: pre) ++ y) = feedsP c (run c ((p :: pre) ++ u)) (v0 :: vs) := by
          rw [e]; unfold run; rw [← feedsP_append]; simp
        rw [e1, e2]
        refine ⟨?_, q2.2.2.1, q2.2.2.2.1 (by simp), ?_⟩
        · rw [q1.1, q2.1, st1, st2]
        · rw [q1.2.1, q2.2.1, st1, st2]
          have := ((run_split ho u (by rw [e] at hgy; exact hgy.left)).1 hnc).2
          rw [this, zero_add]
    obtain ⟨k1, k2, k3, k4⟩ := key
    unfold NgramFeat.absorb
    rw [ha.unscored, hu, hf]
    simp only [if_true]
    constructor
    · simp only; rw [ha.lm, k1]
    · simp only; rw [k2, hS.unscored]
    · simp only; rw [k3]
    · simp [k3]
    · simp
    · simp only; rw [k4, ← hS.feats, ha.feats]; abel
    · intro _
      rw [e]
      simp [hv]
    · intro hx; exact List.mem_append_right _ (ha.eos hx)

theorem sim_out {y : List Nat} {L : Vars} {K : Feats} (h : Sim c y L K) : Out c y (finish c L) (L.feats + K) := by
  refine ⟨h.state, h.unscored, ?_, h.eos, h.feats⟩
  show (L.complete || decide (L.numScored ≥ c.order)) = _
  rw [← h.complete]
  cases hc : L.complete with
  | true => rfl
  | false => have := h.lt hc; simp; omega

/-- The results of the antecedents. -/
structure Kids (c : Cfg) (ks : List (NState × Feats)) (ys : List (List Nat)) : Prop where
  len : ks.length = ys.length
  out : ∀ (i : Nat) (k : NState × Feats) (y : List Nat), ks[i]? = some k → ys[i]? = some y → Out c y k.1 k.2

/-- The sum of the features of the antecedents with the given numbers. -/
def used (ks : List (NState × Feats)) (is : List Nat) : Feats :=
  (is.map fun i => ((ks.map (·.2))[i]?).getD 0).sum

theorem used_all (ks : List (NState × Feats)) (is : List Nat) (h : is.Perm (List.range ks.length)) :
    used ks is = (ks.map (·.2)).sum := by
  unfold used
  rw [(h.map _).sum_eq]
  congr 1
  apply List.ext_getElem
  · simp
  · intro i h1 h2
    simp only [List.length_map] at h2
    simp [List.getElem?_eq_getElem h2]

/-- The loop over a target side. -/
theorem loop_sim (ho : 1 ≤ c.order) {ks : List (NState × Feats)} {ys : List (List Nat)} (hk : Kids c ks ys) (e : List Sym) :
    ∀ {pre : List Nat} {L : Vars} {K : Feats}, Sim c pre L K → Good c (pre ++ expand c ys e) →
    (∀ i ∈ idxs e, i < ks.length) →
    ∃ L', loopP c (ks.map (·.1)) L e = some L' ∧ Sim c (pre ++ expand c ys e) L' (K + used ks (idxs e)) := by
  induction e with
  | nil =>
    intro pre L K h _ _
    exact ⟨L, rfl, by simpa [expand, idxs, used] using h⟩
  | cons s e ih =>
    intro pre L K h hg hi
    cases s with
    | word w =>
      have e1 : pre ++ expand c ys (.word w :: e) = (pre ++ [c.cluster w]) ++ expand c ys e := by simp [expand, cluster_eq]
      rw [e1] at hg ⊢
      exact ih (sim_feed true _ h (sim_run ho pre hg.left.left) hg.left) hg (fun i hm => hi i (by simpa [idxs] using hm))
    | nt i =>
      have hlt : i < ks.length := hi i (by simp [idxs])
      have hlt' : i < ys.length := hk.len ▸ hlt
      have gk : ks[i]? = some ks[i] := List.getElem?_eq_getElem hlt
      have gy : ys[i]? = some ys[i] := List.getElem?_eq_getElem hlt'
      have e1 : pre ++ expand c ys (.nt i :: e) = (pre ++ ys[i]) ++ expand c ys e := by simp [expand, gy]
      rw [e1] at hg ⊢
      have hs := sim_absorb ho h (hk.out i _ _ gk gy) hg.left
      obtain ⟨L', h1, h2⟩ := ih hs hg (fun j hm => hi j (by simp [idxs, hm]))
      refine ⟨L', ?_, ?_⟩
      · unfold loopP
        simp only [List.getElem?_map, gk, Option.map_some]
        exact h1
      · have : K + (ks[i]).2 + used ks (idxs e) = K + used ks (idxs (.nt i :: e)) := by
          simp [used, idxs, gk, add_assoc]
        rw [← this]
        exact h2

theorem idxs_lt {ks : List (NState × Feats)} {e : List Sym} (h : (idxs e).Perm (List.range ks.length)) :
    ∀ i ∈ idxs e, i < ks.length := fun i hi => by simpa using h.mem_iff.1 hi

/-- A piece of the string that the target side produces. -/
theorem expand_infix (ys : List (List Nat)) (e : List Sym) (i : Nat) (y : List Nat) (hy : ys[i]? = some y) (hi : i ∈ idxs e) :
    ∃ a b, expand c ys e = a ++ (y ++ b) := by
  induction e with
  | nil => simp [idxs] at hi
  | cons s e ih =>
    cases s with
    | word w =>
      obtain ⟨a, b, h⟩ := ih (by simpa [idxs] using hi)
      exact ⟨clusterOf c w :: a, b, by simp [expand, h]⟩
    | nt j =>
      simp only [idxs, List.mem_cons] at hi
      by_cases hj : i = j
      · subst hj; exact ⟨[], expand c ys e, by simp [expand, hy]⟩
      · obtain ⟨a, b, h⟩ := ih (hi.resolve_left hj)
        exact ⟨(ys[j]?).getD [] ++ a, b, by simp [expand, h]⟩

theorem yields_getElem (kids : List Deriv) : ∀ i : Nat, (Deriv.yields c kids)[i]? = (kids[i]?).map (Deriv.yield c) := by
  induction kids with
  | nil => intro i; simp [Deriv.yields]
  | cons d ds ih => intro i; cases i <;> simp [Deriv.yields, ih]

theorem yields_length (kids : List Deriv) : (Deriv.yields c kids).length = kids.length := by
  induction kids with
  | nil => simp [Deriv.yields]
  | cons d ds ih => simp [Deriv.yields, ih]

mutual
theorem total_out (ho : 1 ≤ c.order) (d : Deriv) : ∀ k : Cache, k.Sound c → d.Proper → Good c (d.yield c) →
    ∃ k' s T, total c k d = some (k', s, T) ∧ k'.Sound c ∧ Out c (d.yield c) s T := by
  match d with
  | .node e kids =>
    intro k hk hp hg
    simp only [Deriv.Proper] at hp
    simp only [Deriv.yield] at hg ⊢
    have hgk : ∀ y ∈ Deriv.yields c kids, Good c y := by
      intro y hy
      obtain ⟨i, hi⟩ := List.mem_iff_getElem?.1 hy
      have hlt : i < kids.length := by
        have := (List.getElem?_eq_some_iff.1 hi).1
        rwa [yields_length] at this
      obtain ⟨a, b, h⟩ := expand_infix (c := c) (Deriv.yields c kids) e i y hi (hp.1.mem_iff.2 (by simpa using hlt))
      rw [h] at hg
      exact hg.right.left
    obtain ⟨k1, ks, h1, h2, h3⟩ := totals_out ho kids k hk hp.2 hgk
    have hl : ks.length = kids.length := by rw [h3.len, yields_length]
    have hp' : (idxs e).Perm (List.range ks.length) := by rw [hl]; exact hp.1
    obtain ⟨L, g1, g2⟩ := loop_sim ho h3 e (sim_start ho) (by simpa using hg) (idxs_lt hp')
    simp only [List.nil_append, zero_add] at g2
    obtain ⟨k2, g3, g4⟩ := lookupLoop_pure _ e k1 _ L h2 g1
    refine ⟨k2, finish c L, L.feats + (ks.map (·.2)).sum, ?_, g4, ?_⟩
    · unfold total
      rw [h1]
      simp only [lookupWords, g3, Option.map_some]
    · rw [← used_all ks _ hp']
      exact sim_out g2
theorem totals_out (ho : 1 ≤ c.order) (ds : List Deriv) : ∀ k : Cache, k.Sound c → Deriv.Propers ds →
    (∀ y ∈ Deriv.yields c ds, Good c y) →
    ∃ k' ks, totals c k ds = some (k', ks) ∧ k'.Sound c ∧ Kids c ks (Deriv.yields c ds) := by
  match ds with
  | [] =>
    intro k hk _ _
    exact ⟨k, [], by unfold totals; rfl, hk, by simp [Deriv.yields], by simp⟩
  | d :: ds =>
    intro k hk hp hg
    simp only [Deriv.Propers] at hp
    simp only [Deriv.yields, List.mem_cons, forall_eq_or_imp] at hg
    obtain ⟨k1, s, T, h1, h2, h3⟩ := total_out ho d k hk hp.1 hg.1
    obtain ⟨k2, ks, g1, g2, g3⟩ := totals_out ho ds k1 h2 hp.2 hg.2
    refine ⟨k2, (s, T) :: ks, ?_, g2, ?_, ?_⟩
    · unfold totals; rw [h1]; simp only [g1]
    · simp [Deriv.yields, g3.len]
    · intro i k y hki hyi
      cases i with
      | zero =>
        simp only [Deriv.yields, List.getElem?_cons_zero, Option.some.injEq] at hki hyi
        subst hki; subst hyi; exact h3
      | succ i =>
        simp only [Deriv.yields, List.getElem?_cons_succ] at hki hyi
        exact g3.out i k y hki hyi
end

end Cdec.NgramFeat
