import Verif.Klm.VocabLemmas
import Mathlib.Data.List.Induction
/-!
# Lemmas about loading the sorted vocabulary, the hashed vocabulary and lists of words
-/
namespace Cdec.Klm.Vocab

theorem weights_get {W : Type} (weights vals : List W) (n p : Nat) (hl : vals.length = n) (hw : n + 1 ≤ weights.length) (hp : p < n) :
    (weights.take 1 ++ vals ++ weights.drop (n + 1))[p + 1]? = vals[p]? := by
  have h1 : (weights.take 1).length = 1 := by rw [List.length_take]; omega
  rw [List.append_assoc, List.getElem?_append_right (by omega), h1, Nat.add_sub_cancel, List.getElem?_append_left (by omega)]

theorem weights_zero {W : Type} (weights vals : List W) (n : Nat) (hw : n + 1 ≤ weights.length) :
    (weights.take 1 ++ vals ++ weights.drop (n + 1))[0]? = weights[0]? := by
  have h1 : (weights.take 1).length = 1 := by rw [List.length_take]; omega
  rw [List.append_assoc, List.getElem?_append_left (by omega), List.getElem?_take_of_lt (by omega)]

/-- Loading the sorted vocabulary. -/
theorem sorted_load {W : Type} (q : Nat → Nat → Nat → Nat) (sort : JointSort) (hsort : Sorts sort) {h : Word → Nat}
    {S : Word → Prop} {ws : List Word} (hd : Distinguishes h ws S) (ho : Once ws) (enumerate : Bool) (entries : Nat)
    (he : known ws ≤ entries) (weights : List W) (hw : known ws + 1 ≤ weights.length) :
    ∃ is weights' s, Sorted.load sort h enumerate entries ws weights = some (is, weights', s) ∧
      Numbers ws S (s.index q h) s.bound ∧
      (enumerate = true → Lists ws (s.index q h) s.bound s.out) ∧
      (s.sawUnk = true ↔ unk ∈ ws ∨ unkCap ∈ ws) ∧
      weights'.length = weights.length ∧ weights'[0]? = weights[0]? ∧
      (∀ (j : Nat) (w : Word) (i i' : Nat), ws[j]? = some w → Known ws w → is[j]? = some i → s.index q h w = some i' →
        weights'[i']? = weights[i]?) ∧
      s.count = s.hashes.length ∧ s.bound = s.count + 1 := by
  have hins := insertAll_sorted ws hd (Sorted.setup enumerate entries) (by simpa [Sorted.setup] using he)
  have hK : (ws.filter isKnown).length = known ws := rfl
  have hsaw : (ws.any fun w => !isKnown w) = true ↔ unk ∈ ws ∨ unkCap ∈ ws := by
    rw [List.any_eq_true]
    constructor
    · rintro ⟨w, hw, hk⟩
      have : w = unk ∨ w = unkCap := by
        simp only [isKnown, Bool.not_eq_true', decide_eq_false_iff_not] at hk; tauto
      rcases this with rfl | rfl
      · exact Or.inl hw
      · exact Or.inr hw
    · rintro (g | g)
      · exact ⟨_, g, by simp⟩
      · exact ⟨_, g, by simp⟩
  -- the key facts about an array of entries in sorted order
  have core : ∀ {β : Type} (r L : List (Nat × β)) (val : β → W) (s : Sorted), r.Perm L → (r.Pairwise fun a b => a.1 ≤ b.1) →
      L.map Prod.fst = (ws.filter isKnown).map h →
      L.map (fun x => val x.2) = (weights.drop 1).take (known ws) →
      s.hashes = r.map Prod.fst → s.bound = known ws + 1 →
      Numbers ws S (s.index q h) s.bound ∧
      (∀ (w : Word) (p : Nat), s.hashes[p]? = some (h w) → w ∈ ws → s.index q h w = some (p + 1)) ∧
      (weights.take 1 ++ r.map (fun x => val x.2) ++ weights.drop (known ws + 1)).length = weights.length ∧
      (∀ (j : Nat) (w : Word) (i i' : Nat), ws[j]? = some w → Known ws w → (idsFrom 0 ws)[j]? = some i → s.index q h w = some i' →
        (weights.take 1 ++ r.map (fun x => val x.2) ++ weights.drop (known ws + 1))[i']? = weights[i]?) := by
    intro β r L val s hperm hpw hfst hval hh hb
    have hLlen : L.length = known ws := by
      have := congrArg List.length hfst
      simpa [hK] using this
    have hrlen : r.length = known ws := hperm.length_eq.trans hLlen
    obtain ⟨hnum, hidx⟩ := loaded_spec q hd ho s (by rw [hh]; exact List.pairwise_map.mpr hpw)
      (by rw [hh, ← hfst]; exact hperm.map _) hb
    refine ⟨hnum, hidx, ?_, ?_⟩
    · simp only [List.length_append, List.length_take, List.length_drop, List.length_map]; omega
    · intro j w i i' hj hk hi hi'
      obtain ⟨k, rfl, hkw⟩ := idsFrom_get 0 ws j i w hj (by simpa [isKnown] using hk.2) hi
      -- the entry of the word in the unsorted list
      have hLk : ∃ x, L[k]? = some x ∧ x.1 = h w ∧ some (val x.2) = weights[k + 1]? := by
        have hkl : k < L.length := by
          rw [hLlen]; exact (List.getElem?_eq_some_iff.mp hkw).1
        refine ⟨L[k], List.getElem?_eq_getElem hkl, ?_, ?_⟩
        · have := congrArg (fun l => l[k]?) hfst
          simp only [List.getElem?_map, hkw, List.getElem?_eq_getElem hkl, Option.map_some, Option.some.injEq] at this
          exact this
        · have := congrArg (fun l => l[k]?) hval
          simp only [List.getElem?_map, List.getElem?_eq_getElem hkl, Option.map_some] at this
          rw [this, List.getElem?_take_of_lt (by omega), List.getElem?_drop, Nat.add_comm]
      obtain ⟨x, hx, hx1, hx2⟩ := hLk
      obtain ⟨p, hp⟩ := List.mem_iff_getElem?.mp (hperm.mem_iff.mpr (List.mem_of_getElem? hx))
      have hip := hidx w p (by rw [hh, List.getElem?_map, hp, Option.map_some, hx1]) hk.1
      rw [hip] at hi'
      cases hi'
      have hpl := (List.getElem?_eq_some_iff.mp hp).1
      rw [weights_get weights _ (known ws) p (by simp [hrlen]) (by omega) (by omega), List.getElem?_map, hp, Option.map_some, hx2]
      congr 1; omega
  unfold Sorted.load
  rw [hins]
  have hlen0 : ((Sorted.setup enumerate entries).hashes ++ (ws.filter isKnown).map h).length = known ws := by
    simp [Sorted.setup, hK]
  have hnil : (Sorted.setup enumerate entries).hashes = [] := rfl
  simp only [Sorted.finish, hlen0]
  rw [if_neg (by omega)]
  cases enumerate with
  | true =>
    have hstr : Option.map (fun x => x ++ ws.filter isKnown) (Sorted.setup true entries).strings = some (ws.filter isKnown) := rfl
    rw [hstr, hnil]
    simp only [List.nil_append, List.length_nil]
    set L := ((ws.filter isKnown).map h).zip (((weights.drop 1).take (known ws)).zip (ws.filter isKnown)) with hL
    obtain ⟨hperm, hpw⟩ := hsort _ L
    have htl : ((weights.drop 1).take (known ws)).length = known ws := by
      simp only [List.length_take, List.length_drop]; omega
    have hLf : L.map Prod.fst = (ws.filter isKnown).map h := by
      rw [hL, List.map_fst_zip]; simp only [List.length_map, List.length_zip, htl, hK]; omega
    have hLs : L.map Prod.snd = ((weights.drop 1).take (known ws)).zip (ws.filter isKnown) := by
      rw [hL, List.map_snd_zip]; simp only [List.length_map, List.length_zip, htl, hK]; omega
    have hLv : L.map (fun x => x.2.1) = (weights.drop 1).take (known ws) := by
      have : L.map (fun x => x.2.1) = (L.map Prod.snd).map Prod.fst := by rw [List.map_map]; rfl
      rw [this, hLs, List.map_fst_zip]; omega
    have hLw : L.map (fun x => x.2.2) = ws.filter isKnown := by
      have : L.map (fun x => x.2.2) = (L.map Prod.snd).map Prod.snd := by rw [List.map_map]; rfl
      rw [this, hLs, List.map_snd_zip]; omega
    obtain ⟨c1, c2, c3, c4⟩ := core (sort _ L) L Prod.fst
      { count := known ws, hashes := (sort _ L).map Prod.fst, capacity := (Sorted.setup true entries).capacity,
        sawUnk := (Sorted.setup true entries).sawUnk || ws.any (fun w => !isKnown w), bound := known ws + 1, strings := some [],
        out := (Sorted.setup true entries).out ++ numbered 1 ((sort _ L).map fun x => x.2.2) } hperm hpw hLf hLv rfl rfl
    refine ⟨_, _, _, rfl, c1, fun _ => ?_, by simpa [Sorted.setup] using hsaw, c3, weights_zero _ _ _ hw, c4, ?_, rfl⟩
    · have hrl : (sort _ L).length = known ws := by
        have := hperm.length_eq
        rw [this, ← List.length_map (as := L) Prod.fst, hLf, List.length_map, hK]
      have hout : (Sorted.setup true entries).out = [(0, unk)] := rfl
      refine ⟨?_, ?_, ?_⟩
      · simp only [hout, List.length_append, numbered_length, List.length_map, hrl, List.length_singleton]; omega
      · simp only [hout]; rfl
      · intro i hi hib
        simp only at hib
        obtain ⟨k, rfl⟩ := Nat.exists_eq_succ_of_ne_zero (show i ≠ 0 by omega)
        have hkl : k < (sort _ L).length := by omega
        refine ⟨(sort _ L)[k].2.2, ?_, ?_, ?_⟩
        · simp only [hout, List.singleton_append, List.getElem?_cons_succ, numbered_get, List.getElem?_map,
            List.getElem?_eq_getElem hkl, Option.map_some, Nat.succ_eq_add_one, Nat.add_comm]
        · refine known_filter.mpr ?_
          rw [← hLw]
          exact List.mem_map.mpr ⟨_, hperm.mem_iff.mp (List.getElem_mem hkl), rfl⟩
        · have hx : (sort _ L)[k] ∈ L := hperm.mem_iff.mp (List.getElem_mem hkl)
          obtain ⟨m, hm⟩ := List.mem_iff_getElem?.mp hx
          have e1 := congrArg (fun l => l[m]?) hLf
          have e2 := congrArg (fun l => l[m]?) hLw
          simp only [List.getElem?_map, hm, Option.map_some] at e1 e2
          rw [← e2, Option.map_some, Option.some.injEq] at e1
          refine c2 _ k ?_ (List.mem_of_mem_filter (List.mem_of_getElem? e2.symm))
          rw [List.getElem?_map, List.getElem?_eq_getElem hkl, Option.map_some, e1]
    · simp only [List.length_map]
      rw [hperm.length_eq, ← List.length_map (as := L) Prod.fst, hLf, List.length_map, hK]
  | false =>
    have hstr : Option.map (fun x => x ++ ws.filter isKnown) (Sorted.setup false entries).strings = none := rfl
    rw [hstr, hnil]
    simp only [List.nil_append, List.length_nil]
    set L := ((ws.filter isKnown).map h).zip ((weights.drop 1).take (known ws)) with hL
    obtain ⟨hperm, hpw⟩ := hsort _ L
    have htl : ((weights.drop 1).take (known ws)).length = known ws := by
      simp only [List.length_take, List.length_drop]; omega
    have hLf : L.map Prod.fst = (ws.filter isKnown).map h := by
      rw [hL, List.map_fst_zip]; simp only [List.length_map, htl, hK]; omega
    have hLv : L.map Prod.snd = (weights.drop 1).take (known ws) := by
      rw [hL, List.map_snd_zip]; simp only [List.length_map, htl, hK]; omega
    obtain ⟨c1, c2, c3, c4⟩ := core (sort _ L) L id
      { count := known ws, hashes := (sort _ L).map Prod.fst, capacity := (Sorted.setup false entries).capacity,
        sawUnk := (Sorted.setup false entries).sawUnk || ws.any (fun w => !isKnown w), bound := known ws + 1, strings := none,
        out := (Sorted.setup false entries).out } hperm hpw hLf hLv rfl rfl
    refine ⟨_, _, _, rfl, c1, fun hc => by simp at hc, by simpa [Sorted.setup] using hsaw, c3, weights_zero _ _ _ hw, c4, ?_, rfl⟩
    simp only [List.length_map]
    rw [hperm.length_eq, ← List.length_map (as := L) Prod.fst, hLf, List.length_map, hK]

/-! ## Lists of words -/

theorem splitWords_terminated (ws : List Word) (hn : NulFree ws) : splitWords (terminated ws) = ws := by
  induction ws with
  | nil => rw [splitWords]; simp [terminated]
  | cons w ws ih =>
    have hw : 0 ∉ w := hn w (by simp)
    have e : terminated (w :: ws) = w ++ 0 :: terminated ws := by simp [terminated]
    have ht : (w ++ 0 :: terminated ws).takeWhile (· ≠ 0) = w := by
      rw [List.takeWhile_append_of_pos]
      · simp
      · intro x hx
        have : x ≠ 0 := fun h0 => hw (h0 ▸ hx)
        simpa using this
    rw [splitWords, e, dif_neg (by simp)]
    simp only [ht]
    rw [show (w ++ 0 :: terminated ws).drop (w.length + 1) = terminated ws by
      rw [List.drop_append]; simp, ih fun v hv => hn v (by simp [hv])]

theorem exists_terminated (b : List Nat) (hb : b = [] ∨ b.getLast? = some 0) : ∃ ws, NulFree ws ∧ b = terminated ws := by
  induction b using List.reverseRecOn with
  | nil => exact ⟨[], by simp [NulFree], rfl⟩
  | append_singleton b c ih =>
    have hc : c = 0 := by rcases hb with hb | hb <;> simp_all
    subst hc
    clear ih hb
    -- split at the first NUL
    suffices H : ∀ n (b : List Nat), b.length ≤ n → ∃ ws, NulFree ws ∧ b ++ [0] = terminated ws from H b.length b (le_refl _)
    intro n
    induction n with
    | zero =>
      intro b hb
      have : b = [] := List.length_eq_zero_iff.mp (by omega)
      subst this
      exact ⟨[[]], by simp [NulFree], by simp [terminated]⟩
    | succ n ih =>
      intro b hb
      by_cases h0 : 0 ∈ b
      · obtain ⟨u, v, rfl, hu⟩ := List.eq_append_cons_of_mem h0
        obtain ⟨ws, h1, h2⟩ := ih v (by simp at hb; omega)
        refine ⟨u :: ws, ?_, ?_⟩
        · intro w hw
          rcases List.mem_cons.mp hw with rfl | hw
          · exact hu
          · exact h1 w hw
        · have : terminated (u :: ws) = u ++ 0 :: terminated ws := by simp [terminated]
          rw [this, ← h2]; simp
      · exact ⟨[b], by simpa [NulFree] using h0, by simp [terminated]⟩

theorem extend_sound {buf rest b r : List Nat} (h : extend buf rest = some (b, r)) :
    buf ++ rest = b ++ r ∧ b.getLast? = some 0 ∧ r.length ≤ rest.length := by
  induction rest generalizing buf with
  | nil =>
    rw [extend] at h
    split at h
    · cases h; exact ⟨rfl, by assumption, le_refl _⟩
    · cases h
  | cons c rest ih =>
    rw [extend] at h
    split at h
    · cases h; exact ⟨rfl, by assumption, le_refl _⟩
    · obtain ⟨h1, h2, h3⟩ := ih h
      exact ⟨by rw [← h1]; simp, h2, by simp; omega⟩

theorem extend_complete {buf rest : List Nat} (h : (buf ++ rest).getLast? = some 0) : ∃ b r, extend buf rest = some (b, r) := by
  induction rest generalizing buf with
  | nil =>
    rw [List.append_nil] at h
    exact ⟨buf, [], by rw [extend, if_pos h]⟩
  | cons c rest ih =>
    rw [extend]
    split
    · exact ⟨_, _, rfl⟩
    · exact ih (by simpa using h)

theorem terminated_last (ws : List Word) : terminated ws = [] ∨ (terminated ws).getLast? = some 0 := by
  induction ws using List.reverseRecOn with
  | nil => exact Or.inl rfl
  | append_singleton ws w _ => right; simp [terminated, List.flatMap_append]

theorem terminated_append (a b : List Word) : terminated (a ++ b) = terminated a ++ terminated b := by
  simp [terminated, List.flatMap_append]

theorem terminated_inj {a b : List Word} (ha : NulFree a) (hb : NulFree b) (h : terminated a = terminated b) : a = b := by
  rw [← splitWords_terminated a ha, h, splitWords_terminated b hb]

theorem readLoop_iff (K : Nat) (hK : 0 < K) (fuel : Nat) (file : List Nat) (hf : file.length < fuel) (ws : List Word) :
    readLoop K fuel file = some ws ↔ NulFree ws ∧ file = terminated ws := by
  induction fuel generalizing file ws with
  | zero => omega
  | succ fuel ih =>
    rw [readLoop]
    by_cases hn : file = []
    · subst hn
      simp only [List.take_nil, if_true]
      constructor
      · intro h
        cases h
        exact ⟨by simp [NulFree], rfl⟩
      · rintro ⟨_, h2⟩
        cases ws with
        | nil => rfl
        | cons w ws => simp [terminated] at h2
    · have hpos := List.length_pos_iff.mpr hn
      have htk : file.take K ≠ [] := by
        intro h
        have := congrArg List.length h
        simp only [List.length_take, List.length_nil] at this
        omega
      rw [if_neg htk]
      have hdrop : (file.drop K).length < file.length := by rw [List.length_drop]; omega
      constructor
      · intro h
        cases he : extend (file.take K) (file.drop K) with
        | none => rw [he] at h; cases h
        | some x =>
          obtain ⟨b, r⟩ := x
          rw [he] at h
          simp only at h
          obtain ⟨h1, h2, h3⟩ := extend_sound he
          rw [List.take_append_drop] at h1
          cases hr : readLoop K fuel r with
          | none => rw [hr] at h; cases h
          | some w2 =>
            rw [hr] at h
            simp only [Option.some.injEq] at h
            obtain ⟨g1, g2⟩ := (ih r (by omega) w2).mp hr
            obtain ⟨w1, g3, g4⟩ := exists_terminated b (Or.inr h2)
            rw [g4, splitWords_terminated w1 g3] at h
            rw [← h]
            refine ⟨fun w hw => ?_, by rw [h1, g4, g2, terminated_append]⟩
            rcases List.mem_append.mp hw with hw | hw
            · exact g3 w hw
            · exact g1 w hw
      · rintro ⟨h1, h2⟩
        have hlast : file.getLast? = some 0 := by
          rcases terminated_last ws with h | h
          · rw [← h2] at h; exact absurd h hn
          · rw [h2]; exact h
        obtain ⟨b, r, he⟩ := extend_complete (buf := file.take K) (rest := file.drop K) (by rw [List.take_append_drop]; exact hlast)
        obtain ⟨g1, g2, g3⟩ := extend_sound he
        rw [List.take_append_drop] at g1
        obtain ⟨w1, k1, k2⟩ := exists_terminated b (Or.inr g2)
        obtain ⟨w2, k3, k4⟩ := exists_terminated r (by
          by_cases hr : r = []
          · exact Or.inl hr
          · right
            rw [g1, List.getLast?_append_of_ne_nil _ hr] at hlast
            exact hlast)
        have hr := (ih r (by omega) w2).mpr ⟨k3, k4⟩
        rw [he]
        simp only [hr, k2, splitWords_terminated w1 k1]
        have : NulFree (w1 ++ w2) := fun w hw => by
          rcases List.mem_append.mp hw with hw | hw
          · exact k1 w hw
          · exact k3 w hw
        rw [terminated_inj this h1 (by rw [terminated_append, ← k2, ← k4, ← g1, h2])]

end Cdec.Klm.Vocab
