import Verif.Klm.ChartInv
import Verif.Klm.ChartSpec
import Mathlib.Algebra.BigOperators.Group.List.Basic
import Mathlib.Data.List.GetD
/-!
# The language-model feature over a derivation
-/

namespace Cdec.Klm.LM.Feat
open Search

variable {K : Type} [AddCommGroup K] {F : Feat K}

/-- What is known about a fragment that starts with `<s>`. -/
def Anch (F : Feat K) (f : List Word) (left : List (List Word)) (full : Bool) (R : State K) (P : K) :
    Prop :=
  left = [] ∧ full = true ∧ DoneOn F.s (fun v => v = [F.sosId]) (fun _ => 0) f R P

/-- The state and score of a finished fragment. -/
def Sub (F : Feat K) (ys : List Sym) (st : BState K) (P : K) : Prop :=
  ∃ ws : List Word, ((ys = ws.map Sym.word ∧ Frag F.s ws.reverse st.state P ∧ st.bos = false) ∨
      (ys = .sos :: ws.map Sym.word ∧
        Anch F ws.reverse st.state.left.pointers st.state.left.full st.state.right P ∧
        st.bos = true)) ∧
    st.eos = decide (F.eosId ∈ ws)

/-- The score object after the symbols `pre`. -/
def Fold (F : Feat K) (pre : List Sym) (b : BRS K) (P : K) : Prop :=
  ∃ ws : List Word, ((pre = ws.map Sym.word ∧ Inv F.s ws.reverse b.back P ∧ b.bos = false) ∨
      (pre = .sos :: ws.map Sym.word ∧
        Anch F ws.reverse b.back.left b.back.done b.back.right P ∧ b.bos = true)) ∧
    b.eos = decide (F.eosId ∈ ws) ∧ b.penalty = 0

/-- The sentence markers are where they may be. -/
def Cond (F : Feat K) (ne : Bool) (full : List Sym) : Prop :=
  if ne then .sos ∉ full.tail ∧ .word F.eosId ∉ full.dropLast
  else .sos ∉ full ∧ .word F.eosId ∉ full

theorem Cond.infix {ne : Bool} {a y b : List Sym} (h : Cond F ne (a ++ y ++ b)) : Cond F ne y := by
  unfold Cond at *
  cases ne with
  | false =>
    simp only [Bool.false_eq_true, if_false] at *
    exact ⟨fun hm => h.1 (by simp [hm]), fun hm => h.2 (by simp [hm])⟩
  | true =>
    simp only [if_true] at *
    constructor
    · intro hm
      apply h.1
      cases a with
      | nil =>
        cases y with
        | nil => simp at hm
        | cons x t => simpa using Or.inl hm
      | cons x t =>
        have := List.mem_of_mem_tail hm
        simp [this]
    · intro hm
      apply h.2
      cases b with
      | nil =>
        cases y with
        | nil => simp at hm
        | cons x t =>
          rw [List.append_nil, List.dropLast_append_of_ne_nil (by simp)]
          exact List.mem_append_right _ hm
      | cons x t =>
        have := List.dropLast_subset _ hm
        rw [List.dropLast_append_of_ne_nil (by simp)]
        simp [this]

theorem Cond.left {ne : Bool} {y b : List Sym} (h : Cond F ne (y ++ b)) : Cond F ne y :=
  Cond.infix (a := []) (b := b) (by simpa using h)

/-- No end marker before something else. -/
theorem Cond.no_eos {ne : Bool} {pre ey : List Sym} (h : Cond F ne (pre ++ ey))
    (hey : ne = true → ey ≠ []) : .word F.eosId ∉ pre := by
  unfold Cond at h
  cases ne with
  | false =>
    simp only [Bool.false_eq_true, if_false] at h
    exact fun hm => h.2 (by simp [hm])
  | true =>
    simp only [if_true] at h
    intro hm
    apply h.2
    rw [List.dropLast_append_of_ne_nil (hey rfl)]
    simp [hm]

theorem Cond.no_sos {ne : Bool} {pre ey : List Sym} (h : Cond F ne (pre ++ ey))
    (hp : ne = true → pre ≠ []) : .sos ∉ ey := by
  unfold Cond at h
  cases ne with
  | false =>
    simp only [Bool.false_eq_true, if_false] at h
    exact fun hm => h.1 (by simp [hm])
  | true =>
    simp only [if_true] at h
    intro hm
    apply h.1
    cases pre with
    | nil => exact absurd rfl (hp rfl)
    | cons x t => simp [hm]

theorem Fold.eos {pre : List Sym} {b : BRS K} {P : K} (h : Fold F pre b P)
    (hno : .word F.eosId ∉ pre) : b.eos = false := by
  obtain ⟨ws, h1, h2, _⟩ := h
  have hws : F.eosId ∉ ws := by
    intro hm
    apply hno
    rcases h1 with ⟨h1, _⟩ | ⟨h1, _⟩ <;> rw [h1] <;> simp [hm]
  simp [h2, hws]

theorem Fold.start (F : Feat K) : Fold F [] F.start 0 :=
  ⟨[], Or.inl ⟨rfl, Inv.start F.s, rfl⟩, by simp [Feat.start], rfl⟩

theorem Fold.terminal (w : F.s.WF) {ne : Bool} {pre : List Sym} {b : BRS K} {P : K}
    (h : Fold F pre b P) (x : Word) (hc : Cond F ne (pre ++ [.word x])) :
    Fold F (pre ++ [.word x]) (F.terminal b x) (P + ((F.terminal b x).back.prob - b.back.prob)) := by
  have he := h.eos (hc.no_eos (by simp))
  obtain ⟨ws, h1, h2, h3⟩ := h
  refine ⟨ws ++ [x], ?_, ?_, ?_⟩
  · rcases h1 with ⟨h1, hi, hb⟩ | ⟨h1, ⟨hl, hd, hD⟩, hb⟩
    · left
      refine ⟨by simp [h1], ?_, hb⟩
      rw [List.reverse_append]
      exact hi.terminal w x
    · right
      refine ⟨by simp [h1], ?_, hb⟩
      rw [List.reverse_append]
      have ht : (F.terminal b x).back = ⟨b.back.left, (fullScore F.s b.back.right x).2, b.back.done,
          b.back.prob + (fullScore F.s b.back.right x).1.prob⟩ := by
        unfold Feat.terminal RS.terminal; simp [hd]
      rw [ht]
      refine ⟨hl, hd, ?_⟩
      have := hD.terminal w x
      have hP : P + (b.back.prob + (fullScore F.s b.back.right x).1.prob - b.back.prob) =
        P + (fullScore F.s b.back.right x).1.prob := by abel
      simp only [hP]
      exact this
  · show (if x = F.eosId then true else b.eos) = _
    rw [he] at h2
    have : F.eosId ∉ ws := by simpa using h2.symm
    rw [he]
    by_cases hx : x = F.eosId
    · simp [hx]
    · simp [hx, this, Ne.symm hx]
  · show (if b.eos then b.penalty + F.pen else b.penalty) = 0
    simp [he, h3]

theorem Fold.nonTerminal (w : F.s.WF) {ne : Bool} {pre ey : List Sym} {b : BRS K} {P Pin : K}
    {st : BState K} (h : Fold F pre b P) (hs : Sub F ey st Pin) (hc : Cond F ne (pre ++ ey))
    (hp : ne = true → pre ≠ []) (hey : ne = true → ey ≠ []) :
    ∃ b', F.nonTerminal b st = some b' ∧
      Fold F (pre ++ ey) b' (P + Pin + (b'.back.prob - b.back.prob)) := by
  have he := h.eos (hc.no_eos hey)
  have hns := hc.no_sos hp
  obtain ⟨ws, h1, h2, h3⟩ := h
  obtain ⟨wi, s1, s2⟩ := hs
  have hsub : ey = wi.map Sym.word ∧ Frag F.s wi.reverse st.state Pin ∧ st.bos = false := by
    rcases s1 with s1 | ⟨s1, _⟩
    · exact s1
    · rw [s1] at hns; simp at hns
  obtain ⟨t1, t2, t3⟩ := hsub
  have heos : (b.eos || st.eos) = decide (F.eosId ∈ ws ++ wi) := by
    rw [h2, s2]; simp
  rcases h1 with ⟨h1, hi, hb⟩ | ⟨h1, ⟨hl, hd, hD⟩, hb⟩
  · obtain ⟨rs', r1, r2⟩ := hi.nonTerminal w t2 0
    refine ⟨⟨rs', b.bos, b.eos || st.eos, b.penalty⟩, ?_, ws ++ wi, Or.inl ⟨?_, ?_, hb⟩, heos, h3⟩
    · unfold Feat.nonTerminal; simp [r1, t3, he]
    · simp [h1, t1]
    · rw [List.reverse_append]
      rw [sub_zero] at r2
      exact r2
  · obtain ⟨rs', r1, r2, r3, r4⟩ := hD.nonTerminal w hd t2 0
    refine ⟨⟨rs', b.bos, b.eos || st.eos, b.penalty⟩, ?_, ws ++ wi, Or.inr ⟨?_, ⟨?_, r2, ?_⟩, hb⟩,
      heos, h3⟩
    · unfold Feat.nonTerminal; simp [r1, t3, he]
    · simp [h1, t1]
    · rw [← hl]; exact r3
    · rw [List.reverse_append]
      rw [sub_zero] at r4
      exact r4

theorem Fold.finish (w : F.s.WF) {pre : List Sym} {b : BRS K} {P : K} (h : Fold F pre b P) :
    Sub F pre ⟨(RS.finish F.s b.back).1, b.bos, b.eos⟩ P := by
  obtain ⟨ws, h1, h2, h3⟩ := h
  refine ⟨ws, ?_, h2⟩
  rcases h1 with ⟨h1, hi, hb⟩ | ⟨h1, ⟨hl, hd, hD⟩, hb⟩
  · exact Or.inl ⟨h1, hi.finish w, hb⟩
  · exact Or.inr ⟨h1, ⟨hl, by simp [RS.finish, hd], hD⟩, hb⟩

/-- The results of the antecedents. -/
structure Kids (F : Feat K) (ks : List (BState K × K)) (ys : List (List Sym)) : Prop where
  len : ks.length = ys.length
  sub : ∀ (i : Nat) (k : BState K × K) (y : List Sym), ks[i]? = some k → ys[i]? = some y →
    Sub F y k.1 k.2

/-- The sum of the scores of the antecedents with the given indices. -/
def used (ks : List (BState K × K)) (is : List Nat) : K :=
  (is.map (fun i => (ks.map (·.2)).getD i 0)).sum

theorem used_append (ks : List (BState K × K)) (a b : List Nat) :
    used ks (a ++ b) = used ks a + used ks b := by
  simp [used]

theorem used_perm (ks : List (BState K × K)) {is : List Nat}
    (h : is.Perm (List.range ks.length)) : used ks is = (ks.map (·.2)).sum := by
  unfold used
  rw [(h.map _).sum_eq]
  congr 1
  apply List.ext_getElem
  · simp
  · intro i h1 h2
    simp at h1 h2
    simp [List.getD_eq_getElem?_getD, List.getElem?_eq_getElem, h1]

theorem idxs_append (a b : List Sym) : idxs (a ++ b) = idxs a ++ idxs b := by
  induction a with
  | nil => rfl
  | cons x t ih => cases x <;> simp [idxs, ih]

theorem expand_append (ys : List (List Sym)) (a b : List Sym) :
    expand ys (a ++ b) = expand ys a ++ expand ys b := by
  induction a with
  | nil => rfl
  | cons x t ih => cases x <;> simp [expand, ih]

/-- The loop over the symbols of the rule. -/
theorem fold_items (w : F.s.WF) {ne : Bool} {ks : List (BState K × K)} {ys : List (List Sym)}
    (hk : Kids F ks ys) (hyne : ne = true → ∀ y ∈ ys, y ≠ []) (t : List Sym) :
    ∀ (pre : List Sym) (b : BRS K) (P : K), Fold F pre b P → (ne = true → pre ≠ []) →
      (∀ i ∈ idxs t, i < ys.length) → Cond F ne (pre ++ expand ys t) →
      ∃ b', t.foldlM (fun b y => F.item (ks.map (·.1)) b y) b = some b' ∧
        Fold F (pre ++ expand ys t) b'
          (P + used ks (idxs t) + (b'.back.prob - b.back.prob)) := by
  induction t with
  | nil =>
    intro pre b P h _ _ _
    refine ⟨b, rfl, ?_⟩
    simpa [expand, idxs, used] using h
  | cons x t ih =>
    intro pre b P h hp hi hc
    cases x with
    | sos =>
      exfalso
      have := hc.no_sos hp
      simp [expand] at this
    | word x =>
      have hc' : Cond F ne (pre ++ [.word x] ++ expand ys t) := by simpa [expand] using hc
      have h1 := h.terminal w x hc'.left
      obtain ⟨b', b1, b2⟩ := ih _ _ _ h1 (by simp) (fun i hm => hi i hm) hc'
      refine ⟨b', by simpa [List.foldlM_cons, item] using b1, ?_⟩
      have hP : P + ((F.terminal b x).back.prob - b.back.prob) + used ks (idxs t) +
          (b'.back.prob - (F.terminal b x).back.prob) =
          P + used ks (idxs t) + (b'.back.prob - b.back.prob) := by abel
      rw [hP] at b2
      simpa [expand, idxs] using b2
    | nt i =>
      have hil : i < ys.length := hi i (by simp [idxs])
      have hik : i < ks.length := by rw [hk.len]; exact hil
      have hyi : ys[i]? = some ys[i] := List.getElem?_eq_getElem hil
      have hki : ks[i]? = some ks[i] := List.getElem?_eq_getElem hik
      have hc' : Cond F ne (pre ++ ys[i] ++ expand ys t) := by simpa [expand, hyi] using hc
      have hey : ne = true → ys[i] ≠ [] := fun hn => hyne hn _ (List.getElem_mem hil)
      obtain ⟨b1, n1, n2⟩ := h.nonTerminal w (hk.sub i _ _ hki hyi) hc'.left hp hey
      obtain ⟨b', m1, m2⟩ := ih _ _ _ n2 (fun hn => by simp [hp hn])
        (fun j hm => hi j (by simp [idxs, hm])) hc'
      refine ⟨b', ?_, ?_⟩
      · have hit : F.item (ks.map (·.1)) b (.nt i) = some b1 := by
          simp only [item, List.getElem?_map, hki, Option.map_some, n1]
        rw [List.foldlM_cons, hit]
        exact m1
      · have hu : used ks (idxs (Sym.nt i :: t)) = ks[i].2 + used ks (idxs t) := by
          simp [used, idxs, List.getD_eq_getElem?_getD, hki]
        rw [hu]
        have hP : P + ks[i].2 + (b1.back.prob - b.back.prob) + used ks (idxs t) +
            (b'.back.prob - b1.back.prob) =
            P + (ks[i].2 + used ks (idxs t)) + (b'.back.prob - b.back.prob) := by abel
        rw [hP] at m2
        simpa [expand, hyi] using m2

/-- `LookupWords`. -/
theorem lookupWords_spec (w : F.s.WF) {ne : Bool} {ks : List (BState K × K)}
    {ys : List (List Sym)} (hk : Kids F ks ys) (hyne : ne = true → ∀ y ∈ ys, y ≠ []) (e : List Sym)
    (hperm : (idxs e).Perm (List.range ys.length)) (hc : Cond F ne (expand ys e)) :
    ∃ st p, F.lookupWords e (ks.map (·.1)) = some (st, p) ∧
      Sub F (expand ys e) st (p + (ks.map (·.2)).sum) := by
  have hlt : ∀ i ∈ idxs e, i < ys.length := by
    intro i hi
    simpa using hperm.mem_iff.mp hi
  rw [← hk.len] at hperm
  have key : ∃ b, (match e with
      | [] => some F.start
      | x :: t =>
        match F.first (ks.map (·.1)) x with
        | none => none
        | some b => t.foldlM (fun b y => F.item (ks.map (·.1)) b y) b) = some b ∧
      Fold F (expand ys e) b (b.back.prob + used ks (idxs e)) ∧ b.penalty = 0 := by
    cases e with
    | nil =>
      refine ⟨F.start, rfl, ?_, rfl⟩
      have := Fold.start F
      simpa [expand, used, idxs, Feat.start, RS.start] using this
    | cons x t =>
      have hfirst : ∃ b0 pre P0, F.first (ks.map (·.1)) x = some b0 ∧ Fold F pre b0 P0 ∧
          (ne = true → pre ≠ []) ∧ expand ys (x :: t) = pre ++ expand ys t ∧
          used ks (idxs (x :: t)) = P0 - b0.back.prob + used ks (idxs t) := by
        cases x with
        | sos =>
          refine ⟨_, [.sos], 0, rfl, ⟨[], Or.inr ⟨rfl, ⟨rfl, rfl, DoneOn.bos F.s F.sosId⟩, rfl⟩,
            by simp [Feat.start], rfl⟩, by simp, rfl, ?_⟩
          simp [idxs, RS.beginSentence, Feat.start, RS.start]
        | word x =>
          have h := (Fold.start F).terminal (ne := ne) w x (Cond.left (b := expand ys t) (by
            simpa [expand] using hc))
          refine ⟨_, [.word x], _, rfl, h, by simp, rfl, ?_⟩
          simp [idxs, Feat.start, RS.start]
        | nt i =>
          have hil : i < ys.length := hlt i (by simp [idxs])
          have hik : i < ks.length := by rw [hk.len]; exact hil
          have hyi : ys[i]? = some ys[i] := List.getElem?_eq_getElem hil
          have hki : ks[i]? = some ks[i] := List.getElem?_eq_getElem hik
          refine ⟨⟨RS.beginNonTerminal ks[i].1.state 0, ks[i].1.bos, ks[i].1.eos, 0⟩, ys[i], ks[i].2,
            ?_, ?_, fun hn => hyne hn _ (List.getElem_mem hil), ?_, ?_⟩
          · simp [first, hki]
          · obtain ⟨ws, s1, s2⟩ := hk.sub i _ _ hki hyi
            refine ⟨ws, ?_, s2, rfl⟩
            rcases s1 with ⟨a1, a2, a3⟩ | ⟨a1, a2, a3⟩
            · exact Or.inl ⟨a1, a2.begin 0, a3⟩
            · exact Or.inr ⟨a1, a2, a3⟩
          · simp [expand, hyi]
          · simp [used, idxs, List.getD_eq_getElem?_getD, hki, RS.beginNonTerminal]
      obtain ⟨b0, pre, P0, f1, f2, f3, f4, f5⟩ := hfirst
      obtain ⟨b', g1, g2⟩ := fold_items w hk hyne t pre b0 P0 f2 f3
        (fun i hi => hlt i (by cases x <;> simp [idxs, hi])) (by rw [← f4]; exact hc)
      refine ⟨b', by simp only [f1]; exact g1, ?_, ?_⟩
      · rw [f4, f5]
        have hP : b'.back.prob + (P0 - b0.back.prob + used ks (idxs t)) =
            P0 + used ks (idxs t) + (b'.back.prob - b0.back.prob) := by abel
        rw [hP]; exact g2
      · obtain ⟨_, _, _, h3⟩ := g2
        exact h3
  obtain ⟨b, k1, k2, k3⟩ := key
  refine ⟨⟨(RS.finish F.s b.back).1, b.bos, b.eos⟩, b.penalty + (RS.finish F.s b.back).2, ?_, ?_⟩
  · unfold lookupWords
    exact congrArg (Option.map (fun b : BRS K => ((⟨(RS.finish F.s b.back).1, b.bos, b.eos⟩ : BState K),
      b.penalty + (RS.finish F.s b.back).2))) k1
  · rw [used_perm ks hperm] at k2
    have := k2.finish w
    rw [k3, zero_add]
    exact this

theorem expand_mem {ys : List (List Sym)} {e : List Sym} {i : Nat} (hi : i ∈ idxs e)
    {y : List Sym} (hy : ys[i]? = some y) : ∃ a b, expand ys e = a ++ y ++ b := by
  induction e with
  | nil => simp [idxs] at hi
  | cons x t ih =>
    cases x with
    | sos =>
      obtain ⟨a, b, h⟩ := ih hi
      exact ⟨.sos :: a, b, by simp [expand, h]⟩
    | word x =>
      obtain ⟨a, b, h⟩ := ih hi
      exact ⟨.word x :: a, b, by simp [expand, h]⟩
    | nt j =>
      simp only [idxs, List.mem_cons] at hi
      rcases hi with rfl | hi
      · exact ⟨[], expand ys t, by simp [expand, hy]⟩
      · obtain ⟨a, b, h⟩ := ih hi
        exact ⟨(ys[j]?).getD [] ++ a, b, by simp [expand, h]⟩

theorem yields_length (kids : List Deriv) : (Deriv.yields kids).length = kids.length := by
  induction kids with
  | nil => rfl
  | cons d t ih => simp [Deriv.yields, ih]

mutual
theorem yield_ne : ∀ (d : Deriv), d.Proper → d.NonEmpty → d.yield ≠ []
  | .node e kids, hp, hn => by
    unfold Deriv.NonEmpty at hn
    unfold Deriv.Proper at hp
    unfold Deriv.yield
    have hk := yields_ne kids hp.2 hn.2
    cases e with
    | nil => exact absurd rfl hn.1
    | cons x t =>
      cases x with
      | sos => simp [expand]
      | word x => simp [expand]
      | nt i =>
        have : i < (Deriv.yields kids).length := by
          rw [yields_length]
          simpa using hp.1.mem_iff.mp (show i ∈ idxs (Sym.nt i :: t) by simp [idxs])
        simp only [expand, List.getElem?_eq_getElem this, Option.getD_some]
        intro h
        exact hk _ (List.getElem_mem this) (List.append_eq_nil_iff.mp h).1
theorem yields_ne : ∀ (ds : List Deriv), Deriv.Propers ds → Deriv.NonEmptys ds →
    ∀ y ∈ Deriv.yields ds, y ≠ []
  | [], _, _, y, hy => by simp [Deriv.yields] at hy
  | d :: t, hp, hn, y, hy => by
    unfold Deriv.NonEmptys at hn
    unfold Deriv.Propers at hp
    unfold Deriv.yields at hy
    rcases List.mem_cons.mp hy with rfl | hy
    · exact yield_ne d hp.1 hn.1
    · exact yields_ne t hp.2 hn.2 y hy
end

mutual
theorem total_spec (w : F.s.WF) (ne : Bool) : ∀ (d : Deriv), d.Proper →
    (ne = true → d.NonEmpty) → Cond F ne d.yield →
    ∃ st p, F.total d = some (st, p) ∧ Sub F d.yield st p
  | .node e kids, hp, hn, hc => by
    unfold Deriv.Proper at hp
    have hn' : ne = true → Deriv.NonEmptys kids := fun h => by
      have := hn h; unfold Deriv.NonEmpty at this; exact this.2
    unfold Deriv.yield at hc ⊢
    have hkc : ∀ y ∈ Deriv.yields kids, Cond F ne y := by
      intro y hy
      obtain ⟨i, hi, rfl⟩ := List.getElem_of_mem hy
      have him : i ∈ idxs e := hp.1.mem_iff.mpr (by rw [yields_length] at hi; simpa using hi)
      obtain ⟨a, b, hab⟩ := expand_mem him (List.getElem?_eq_getElem hi)
      rw [hab] at hc
      exact hc.infix
    obtain ⟨ks, k1, k2⟩ := totals_spec w ne kids hp.2 hn' hkc
    obtain ⟨st, p, l1, l2⟩ := lookupWords_spec w (ne := ne) k2
      (fun h => yields_ne kids hp.2 (hn' h)) e (by rw [yields_length]; exact hp.1) hc
    refine ⟨st, p + (ks.map (·.2)).sum, ?_, l2⟩
    unfold total
    rw [k1]
    simp only [l1]
theorem totals_spec (w : F.s.WF) (ne : Bool) : ∀ (ds : List Deriv), Deriv.Propers ds →
    (ne = true → Deriv.NonEmptys ds) → (∀ y ∈ Deriv.yields ds, Cond F ne y) →
    ∃ ks, F.totals ds = some ks ∧ Kids F ks (Deriv.yields ds)
  | [], _, _, _ => ⟨[], by unfold totals; rfl, ⟨rfl, by simp⟩⟩
  | d :: t, hp, hn, hc => by
    unfold Deriv.Propers at hp
    have hn' : ne = true → d.NonEmpty ∧ Deriv.NonEmptys t := fun h => by
      have := hn h; unfold Deriv.NonEmptys at this; exact this
    unfold Deriv.yields at hc ⊢
    obtain ⟨st, p, d1, d2⟩ := total_spec w ne d hp.1 (fun h => (hn' h).1) (hc _ (by simp))
    obtain ⟨ks, k1, k2⟩ := totals_spec w ne t hp.2 (fun h => (hn' h).2)
      (fun y hy => hc y (by simp [hy]))
    refine ⟨(st, p) :: ks, ?_, by simp [k2.len], ?_⟩
    · unfold totals
      rw [d1, k1]
    · intro i k y h1 h2
      cases i with
      | zero =>
        simp at h1 h2
        subst h1; subst h2; exact d2
      | succ i =>
        simp at h1 h2
        exact k2.sub i k y h1 h2
end

/-- Without sentence markers in the rules. -/
theorem score_free (w : F.s.WF) (d : Deriv) (hp : d.Proper) (ws : List Word)
    (hy : d.yield = ws.map Sym.word) (he : F.eosId ∉ ws) :
    F.score true d = some (F.s.ss (ws ++ [F.eosId]).reverse [F.sosId]) := by
  have hc : Cond F false d.yield := by
    unfold Cond
    rw [hy]
    simp [he]
  obtain ⟨st, p, t1, wi, s1, s2⟩ := total_spec w false d hp (by simp) hc
  have hs : d.yield = wi.map Sym.word ∧ Frag F.s wi.reverse st.state p ∧ st.bos = false := by
    rcases s1 with s1 | ⟨s1, _⟩
    · exact s1
    · rw [hy] at s1; cases ws <;> simp at s1
  obtain ⟨h1, h2, _⟩ := hs
  have hwi : wi = ws := by
    rw [hy] at h1
    exact (List.map_injective_iff.mpr (fun a b h => by simpa using h) h1).symm
  subst hwi
  obtain ⟨rs', r1, r2, r3, r4⟩ := (DoneOn.bos F.s F.sosId).nonTerminal w
    (rs := RS.beginSentence F.s F.sosId RS.start) rfl h2 0
  have hfin := r4.terminal w F.eosId
  obtain ⟨f1, f2⟩ := hfin [F.sosId] rfl
  have hf : F.finalCost true st = some (RS.finish F.s (RS.terminal F.s rs' F.eosId)).2 := by
    unfold finalCost
    simp [r1]
  have hb := (r4 [F.sosId] rfl).1
  obtain ⟨u1, u2, u3⟩ := fullScore_spec w hb F.eosId
  unfold score
  rw [t1]
  simp only [hf, Option.map_some]
  congr 1
  have ht : (RS.finish F.s (RS.terminal F.s rs' F.eosId)).2 =
      rs'.prob + (fullScore F.s rs'.right F.eosId).1.prob := by
    unfold RS.terminal RS.finish
    simp [r2]
  rw [ht, List.reverse_append]
  rw [List.cons_append] at f2
  rw [u3, add_zero, add_zero] at f2
  simp only [List.append_nil] at f2
  simp only [List.reverse_cons, List.reverse_nil, List.nil_append, List.singleton_append]
  rw [f2]
  simp only [RS.beginSentence, RS.start]
  abel

/-- With sentence markers in the rules. -/
theorem score_explicit (w : F.s.WF) (d : Deriv) (hp : d.Proper) (hn : d.NonEmpty) (ws : List Word)
    (hy : d.yield = .sos :: (ws ++ [F.eosId]).map Sym.word) (he : F.eosId ∉ ws)
    (hb : ∀ c, F.s.boOf (F.eosId :: c) = 0) :
    F.score false d = some (F.s.ss (ws ++ [F.eosId]).reverse [F.sosId]) := by
  have hc : Cond F true d.yield := by
    unfold Cond
    rw [hy, List.map_append, List.map_cons, List.map_nil, ← List.cons_append,
      List.dropLast_concat]
    simp [he]
  obtain ⟨st, p, t1, wi, s1, s2⟩ := total_spec w true d hp (fun _ => hn) hc
  have hs : d.yield = .sos :: wi.map Sym.word ∧
      Anch F wi.reverse st.state.left.pointers st.state.left.full st.state.right p ∧
        st.bos = true := by
    rcases s1 with ⟨s1, _⟩ | s1
    · rw [hy] at s1; cases wi <;> simp at s1
    · exact s1
  obtain ⟨h1, ⟨_, _, h2⟩, h3⟩ := hs
  have hwi : wi = ws ++ [F.eosId] := by
    rw [hy] at h1
    simp only [List.cons.injEq, true_and] at h1
    exact (List.map_injective_iff.mpr (fun a b h => by simpa using h) h1).symm
  subst hwi
  obtain ⟨g1, g2⟩ := h2 [F.sosId] rfl
  unfold score
  rw [t1]
  have heos : st.eos = true := by rw [s2]; simp
  have hz : resid F.s [] ((ws ++ [F.eosId]).reverse ++ [F.sosId]) st.state.right.length = 0 := by
    rw [List.reverse_append]
    refine bos_drop_zero _ _ _ _ (fun j hj hl => ?_)
    cases j with
    | zero => omega
    | succ j => simpa using hb _
  rw [hz, add_zero, add_zero] at g2
  rw [g2]
  simp [finalCost, h3, heos]

end Cdec.Klm.LM.Feat
