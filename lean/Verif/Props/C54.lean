import Verif.Klm.TokenIter
/-!
# C54: token iteration

Specification: for a set of delimiter characters the tokens are the fields between delimiters, `List.splitOnP` of
the core library, or the non-empty ones among them.  For a delimiter string, the tokens are the pieces that give
the text back when they are joined with the delimiter, cut at the leftmost occurrences.
-/
namespace Cdec.Klm

variable {α : Type _} [DecidableEq α]

/-- The tokens the caller sees: all fields, or the non-empty ones. -/
def keep (skipEmpty : Bool) (l : List (List α)) : List (List α) :=
  if skipEmpty then l.filter (fun t => t ≠ []) else l

/-- `F` lists the fields that a finder cuts. -/
def Cuts (find : List α → Nat × Nat) (F : List α → List (List α)) : Prop :=
  ∀ s, F s = s.take (find s).1 ::
      (if (find s).1 = s.length then [] else F (s.drop ((find s).1 + (find s).2))) ∧
    (find s).1 ≤ s.length ∧ ((find s).1 ≠ s.length → 0 < (find s).2)

def fopt (F : List α → List (List α)) : Option (List α) → List (List α)
  | none => []
  | some s => F s

def psize : Option (List α) → Nat
  | none => 0
  | some s => s.length + 1

theorem fopt_step {find : List α → Nat × Nat} {F : List α → List (List α)} (hF : Cuts find F) (s : List α) :
    ∃ t a, tokStep find (some s) = (some t, a) ∧ F s = t :: fopt F a ∧ psize a < psize (some s) := by
  obtain ⟨h1, h2, h3⟩ := hF s
  unfold tokStep
  refine ⟨_, _, rfl, ?_, ?_⟩
  · rw [h1]; split <;> rfl
  · split
    · simp [psize]
    · rename_i hne
      have := h3 hne
      simp only [psize, List.length_drop]; omega

theorem tokIncr_spec {find : List α → Nat × Nat} {F : List α → List (List α)} (hF : Cuts find F) (skip : Bool)
    (n : Nat) (after : Option (List α)) (hn : psize after < n) :
    (keep skip (fopt F after) = [] ∧ ∃ a, tokIncr find skip n after = some (none, a)) ∨
    ∃ t a, tokIncr find skip n after = some (some t, a) ∧
      keep skip (fopt F after) = t :: keep skip (fopt F a) ∧ psize a < psize after := by
  induction n generalizing after with
  | zero => omega
  | succ n ih =>
    cases after with
    | none =>
      refine Or.inl ⟨by simp [fopt, keep], none, by simp [tokIncr, tokStep]⟩
    | some s =>
      obtain ⟨t, a, h1, h2, h3⟩ := fopt_step hF s
      unfold tokIncr
      rw [show fopt F (some s) = t :: fopt F a from h2]
      simp only [h1]
      by_cases hc : skip = true ∧ some t = some []
      · obtain ⟨hs, ht⟩ := hc
        cases ht
        subst hs
        simp only [and_self, if_true]
        have hk : keep true ([] :: fopt F a) = keep true (fopt F a) := by simp [keep]
        rw [hk]
        rcases ih a (by omega) with h | ⟨t', a', e1, e2, e3⟩
        · exact Or.inl h
        · exact Or.inr ⟨t', a', e1, e2, by omega⟩
      · rw [if_neg hc]
        refine Or.inr ⟨t, a, rfl, ?_, h3⟩
        unfold keep
        cases skip with
        | false => rfl
        | true =>
          have : t ≠ [] := fun h => hc ⟨rfl, by rw [h]⟩
          simp [this]

theorem tokens_spec {find : List α → Nat × Nat} {F : List α → List (List α)} (hF : Cuts find F) (skip : Bool)
    (n : Nat) (after : Option (List α)) (hn : psize after < n) :
    tokens find skip n after = some (keep skip (fopt F after)) := by
  induction n generalizing after with
  | zero => omega
  | succ n ih =>
    unfold tokens
    rcases tokIncr_spec hF skip (n + 1) after hn with ⟨h, a, e⟩ | ⟨t, a, e1, e2, e3⟩
    · rw [e, h]
    · rw [e1, e2]
      simp [ih a (by omega)]

theorem cuts_of_pred (p : α → Bool) (find : List α → Nat × Nat) (h1 : ∀ s, (find s).1 = s.findIdx p)
    (h2 : ∀ s, (find s).1 ≠ s.length → (find s).2 = 1) : Cuts find (List.splitOnP p) := by
  intro s
  refine ⟨?_, by rw [h1]; exact List.findIdx_le_length, fun h => by rw [h2 s h]; exact Nat.one_pos⟩
  rw [h1]
  by_cases hl : s.findIdx p = s.length
  · rw [if_pos hl, hl, List.take_length]
    rw [List.splitOnP_eq_singleton]
    intro x hx
    have := List.findIdx_eq_length.mp hl x hx
    simpa using this
  · rw [if_neg hl, h2 s (by rw [h1]; exact hl)]
    clear h1 h2
    induction s with
    | nil => simp at hl
    | cons x s ih =>
      rw [List.splitOnP_cons_eq_if_modifyHead, List.findIdx_cons]
      cases hx : p x with
      | true => simp
      | false =>
        simp only [cond_false, Bool.false_eq_true, if_false]
        rw [List.findIdx_cons, hx] at hl
        simp only [cond_false, List.length_cons] at hl
        rw [ih (by omega)]
        simp

/-- **C54 (one delimiter character).** -/
theorem C54_single (d : α) (skip : Bool) (s : List α) (n : Nat) (hn : s.length + 2 ≤ n) :
    tokens (findSingle d) skip n (some s) = some (keep skip (s.splitOnP (· == d))) :=
  tokens_spec (cuts_of_pred (fun c => c == d) _ (fun _ => rfl) (fun _ _ => rfl)) skip n (some s)
    (by simp only [psize]; omega)

/-- **C54 (any of several delimiter characters).** -/
theorem C54_any (chars : List α) (skip : Bool) (s : List α) (n : Nat) (hn : s.length + 2 ≤ n) :
    tokens (findAny chars) skip n (some s) = some (keep skip (s.splitOnP (fun c => chars.contains c))) :=
  tokens_spec (cuts_of_pred (fun c => chars.contains c) _ (fun _ => rfl) (fun _ _ => rfl)) skip n (some s)
    (by simp only [psize]; omega)

/-- **C54 (delimiter table).**  The table built from a string literal also delimits at NUL characters. -/
theorem C54_bool (nul : α) (literal : List α) (skip : Bool) (s : List α) (n : Nat) (hn : s.length + 2 ≤ n) :
    tokens (findBool (buildTable nul literal)) skip n (some s) =
      some (keep skip (s.splitOnP (fun c => decide (c ∈ literal ∨ c = nul)))) := by
  have he : (fun c => decide (c ∈ literal ∨ c = nul)) = buildTable nul literal := by
    funext c; simp [buildTable]
  rw [he]
  refine tokens_spec (cuts_of_pred _ _ (fun t => ?_) (fun t h => ?_)) skip n (some s)
    (by simp only [psize]; omega)
  · unfold findBool; split
    · rename_i h; exact h.symm
    · rfl
  · unfold findBool at h ⊢
    split at h
    · exact absurd rfl h
    · rename_i h'; rw [if_neg h']

/-- The pieces of a text around the leftmost occurrences of a non-empty delimiter. -/
def IsSplit (d s : List α) (ts : List (List α)) : Prop :=
  ts ≠ [] ∧ List.intercalate d ts = s ∧
    (∀ t ∈ ts.dropLast, ∀ i < t.length, ¬ d <+: (t ++ d).drop i) ∧
    ∀ t, ts.getLast? = some t → ¬ d <:+: t

theorem search_le (d s : List α) : search d s ≤ s.length := by
  induction s with
  | nil => simp [search]
  | cons c s ih => unfold search; split <;> simp; exact ih

theorem search_lt (d s : List α) (h : search d s ≠ s.length) : d <+: s.drop (search d s) := by
  induction s with
  | nil => simp [search] at h
  | cons c s ih =>
    unfold search at h ⊢
    split
    · rename_i hp; exact List.isPrefixOf_iff_prefix.mp hp
    · rename_i hp
      rw [if_neg hp] at h
      simpa using ih (by simpa using h)

theorem search_min (d s : List α) (i : Nat) (hi : i < search d s) : ¬ d <+: s.drop i := by
  induction s generalizing i with
  | nil => simp [search] at hi
  | cons c s ih =>
    unfold search at hi
    split at hi
    · omega
    · rename_i hp
      cases i with
      | zero => intro h; exact hp (List.isPrefixOf_iff_prefix.mpr (by simpa using h))
      | succ i => simpa using ih i (by omega)

/-- The fields cut by `MultiCharacter`, by recursion on the text. -/
def cutMulti (d : List α) (s : List α) : List (List α) :=
  if h : search d s = s.length ∨ d = [] then [s]
  else s.take (search d s) :: cutMulti d (s.drop (search d s + d.length))
termination_by s.length
decreasing_by
  have hd : 0 < d.length := List.length_pos_iff.mpr (fun e => h (Or.inr e))
  have := search_le d s
  simp only [List.length_drop]
  have : search d s ≠ s.length := fun e => h (Or.inl e)
  omega

theorem cutMulti_ne_nil (d s : List α) : cutMulti d s ≠ [] := by
  unfold cutMulti; split <;> simp

theorem cutMulti_isSplit (d s : List α) (hd : d ≠ []) : IsSplit d s (cutMulti d s) := by
  fun_induction cutMulti d s with
  | case1 s h =>
    have h := h.resolve_right hd
    refine ⟨by simp, by simp [List.intercalate], by simp, ?_⟩
    intro t ht
    simp only [List.getLast?_singleton, Option.some.injEq] at ht
    subst ht
    rintro ⟨a, b, hab⟩
    have h1 : a.length < search d s := by
      rw [h, ← hab]
      have := List.length_pos_iff.mpr hd
      simp only [List.length_append]; omega
    refine search_min d s _ h1 ?_
    rw [← hab, List.append_assoc, List.drop_left]
    exact List.prefix_append _ _
  | case2 s h ih =>
    obtain ⟨e1, e2, e3, e4⟩ := ih
    have hne : search d s ≠ s.length := fun e => h (Or.inl e)
    obtain ⟨r, hr⟩ := search_lt d s hne
    have hdrop : s.drop (search d s + d.length) = r := by
      rw [← List.drop_drop, ← hr, List.drop_left]
    have hs : s = s.take (search d s) ++ (d ++ r) := by rw [hr, List.take_append_drop]
    refine ⟨by simp, ?_, ?_, ?_⟩
    · rw [List.intercalate_cons_of_ne_nil e1, e2, hdrop, List.append_assoc, ← hs]
    · intro t ht i hi hpre
      obtain ⟨u, us, hus⟩ := List.exists_cons_of_ne_nil e1
      rw [hus, List.dropLast_cons_of_ne_nil (by simp), ← hus] at ht
      rcases List.mem_cons.mp ht with rfl | ht
      · have hil : i < search d s := by rw [List.length_take] at hi; omega
        refine search_min d s i hil ?_
        have hle : i ≤ (s.take (search d s) ++ d).length := by
          rw [List.length_append]; omega
        have : s.drop i = (s.take (search d s) ++ d).drop i ++ r := by
          conv_lhs => rw [hs]
          rw [← List.append_assoc, List.drop_append_of_le_length hle]
        rw [this]
        exact hpre.trans (List.prefix_append _ _)
      · exact e3 t ht i hi hpre
    · intro t ht
      obtain ⟨u, us, hus⟩ := List.exists_cons_of_ne_nil e1
      rw [hus, List.getLast?_cons_cons, ← hus] at ht
      exact e4 t ht

/-- **C54 (delimiter string).**  For a non-empty delimiter the tokens are the pieces around its leftmost
occurrences (all of them, or the non-empty ones). -/
theorem C54_multi (d : List α) (hd : d ≠ []) (s : List α) :
    ∃ ts, IsSplit d s ts ∧ ∀ skip n, s.length + 2 ≤ n →
      tokens (findMulti d) skip n (some s) = some (keep skip ts) := by
  refine ⟨cutMulti d s, cutMulti_isSplit d s hd, fun skip n hn => ?_⟩
  refine tokens_spec (F := cutMulti d) ?_ skip n (some s) (by simp only [psize]; omega)
  intro s
  refine ⟨?_, search_le d s, fun _ => List.length_pos_iff.mpr hd⟩
  simp only [findMulti]
  rw [cutMulti]
  by_cases h : search d s = s.length
  · rw [dif_pos (Or.inl h)]; simp [h]
  · rw [dif_neg (by rintro (h' | h'); exacts [h h', hd h'])]; simp [h]

theorem intercalate_cons_cons (d t u : List α) (us : List (List α)) :
    List.intercalate d (t :: u :: us) = t ++ d ++ List.intercalate d (u :: us) :=
  List.intercalate_cons_of_ne_nil (by simp)

/-- `IsSplit` determines the pieces. -/
theorem C54_split_unique (d s : List α) (hd : d ≠ []) (ts us : List (List α)) (h1 : IsSplit d s ts)
    (h2 : IsSplit d s us) : ts = us := by
  induction ts generalizing us s with
  | nil => exact absurd rfl h1.1
  | cons t ts ih =>
    cases us with
    | nil => exact absurd rfl h2.1
    | cons u us =>
      obtain ⟨_, a2, a3, a4⟩ := h1
      obtain ⟨_, b2, b3, b4⟩ := h2
      have hdl := List.length_pos_iff.mpr hd
      -- leftmost occurrence in both
      have key : ∀ (x y r r' : List α), (∀ i < x.length, ¬ d <+: (x ++ d).drop i) → x ++ d ++ r = y ++ d ++ r' →
          x.length ≤ y.length := by
        intro x y r r' hx he
        by_contra hlt
        have hlt : y.length < x.length := by omega
        refine hx y.length hlt ?_
        have h1 : d <+: (x ++ d ++ r).drop y.length := by
          rw [he, List.append_assoc, List.drop_left]; exact List.prefix_append _ _
        rw [List.append_assoc, ← List.append_assoc, List.drop_append_of_le_length
          (by rw [List.length_append]; omega)] at h1
        refine List.prefix_of_prefix_length_le h1 (List.prefix_append _ _) ?_
        rw [List.length_drop, List.length_append]; omega
      cases ts with
      | nil =>
        cases us with
        | nil => simp only [List.intercalate_singleton] at a2 b2; rw [a2, b2]
        | cons v us =>
          exfalso
          rw [intercalate_cons_cons] at b2
          simp only [List.intercalate_singleton] at a2
          refine a4 t rfl ⟨u, List.intercalate d (v :: us), ?_⟩
          rw [b2, a2]
      | cons w ts =>
        rw [intercalate_cons_cons] at a2
        cases us with
        | nil =>
          exfalso
          simp only [List.intercalate_singleton] at b2
          refine b4 u rfl ⟨t, List.intercalate d (w :: ts), ?_⟩
          rw [a2, b2]
        | cons v us =>
          rw [intercalate_cons_cons] at b2
          have e : t ++ d ++ List.intercalate d (w :: ts) = u ++ d ++ List.intercalate d (v :: us) := by
            rw [a2, b2]
          have hl : t.length = u.length := by
            have x := key t u _ _ (a3 t (by simp)) e
            have y := key u t _ _ (b3 u (by simp)) e.symm
            omega
          rw [List.append_assoc, List.append_assoc] at e
          obtain ⟨e1, e2⟩ := List.append_inj e hl
          have e2 := List.append_cancel_left e2
          subst e1
          congr 1
          exact ih (List.intercalate d (w :: ts)) (v :: us)
            ⟨by simp, rfl, fun x hx => a3 x (by
              rw [List.dropLast_cons_of_ne_nil (by simp)]; exact List.mem_cons_of_mem _ hx),
              fun x hx => a4 x (by rw [List.getLast?_cons_cons]; exact hx)⟩
            ⟨by simp, e2.symm, fun x hx => b3 x (by
              rw [List.dropLast_cons_of_ne_nil (by simp)]; exact List.mem_cons_of_mem _ hx),
              fun x hx => b4 x (by rw [List.getLast?_cons_cons]; exact hx)⟩

/-- A null piece has no tokens, with any finder. -/
theorem C54_null (find : List α → Nat × Nat) (skip : Bool) (n : Nat) (hn : 0 < n) :
    tokens find skip n none = some [] := by
  obtain ⟨m, rfl⟩ := Nat.exists_eq_succ_of_ne_zero (Nat.pos_iff_ne_zero.mp hn)
  simp [tokens, tokIncr, tokStep]

/-- With an empty delimiter string the iteration does not end. -/
theorem C54_empty_delimiter_fails (skip : Bool) (n : Nat) :
    tokens (findMulti ([] : List Char)) skip n (some ['a']) = none := by
  have hs : tokStep (findMulti ([] : List Char)) (some ['a']) = (some [], some ['a']) := by
    simp [tokStep, findMulti, search]
  have hi : ∀ n, tokIncr (findMulti ([] : List Char)) true n (some ['a']) = none := by
    intro n
    induction n with
    | zero => rfl
    | succ n ih => unfold tokIncr; rw [hs]; simpa using ih
  induction n with
  | zero => rfl
  | succ n ih =>
    unfold tokens
    cases skip with
    | true => rw [hi]
    | false =>
      unfold tokIncr; rw [hs]; simp [ih]

/-- The finder `AnyCharacterLast` looks for the whole sequence of its characters, not for any of them: it does
not split "a b" at the blank when its characters are blank and tab.  (No code in the repository uses it.) -/
theorem C54_any_character_last_fails :
    tokens (findLast [' ', '\t']) false 10 (some ['a', ' ', 'b']) = some [['a', ' ', 'b']] := by decide

/-- Non-vacuity: leading, doubled and trailing delimiters. -/
example : tokens (findSingle ' ') false 20 (some " ab  c ".toList) = some [[], ['a', 'b'], [], ['c'], []] ∧
    tokens (findSingle ' ') true 20 (some " ab  c ".toList) = some [['a', 'b'], ['c']] ∧
    tokens (findMulti "||".toList) false 20 (some "a|||b||".toList) = some [['a'], ['|', 'b'], []] := by decide

end Cdec.Klm
