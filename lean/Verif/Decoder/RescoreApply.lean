import Verif.Decoder.RescoreTrees
import Mathlib.Data.List.Nodup
/-! Helper lemmas: what one node and the whole loop attach. -/
namespace Cdec.Dec
open Cdec.HG Spec
variable {S K φ α : Type} [DecidableEq K]

section
variable {M : Models S φ} {key : S → K} {g : Hypergraph α} {cat : Nat → Int}

theorem expand_nm_ne (hd : Nat) (isGoal : Bool) (s : RS S φ × List (K × Nat)) (e : Nat) (ts : List Nat) (upd : Bool) (t : Nat) (ht : t ≠ hd) :
    (expand M key cat hd isGoal s e ts upd).1.nm t = s.1.nm t := by
  unfold expand RS.nm
  simp only []
  split
  · rfl
  · simp only [List.getD_eq_getElem?_getD, List.getElem?_modify]
    have : ¬ hd = t := fun h => ht h.symm
    simp [this]

/-- Attach edges one after the other. -/
def attach (M : Models S φ) (key : S → K) (cat : Nat → Int) (g : Hypergraph α) (u : Nat) (L : List (Nat × List Nat × Bool)) (s : RS S φ × List (K × Nat)) :
    RS S φ × List (K × Nat) :=
  L.foldl (fun s x => expand M key cat u (u == g.nodes.length - 1) s x.1 x.2.1 x.2.2) s

theorem attach_nm_ne (u : Nat) (L : List (Nat × List Nat × Bool)) (s : RS S φ × List (K × Nat)) (t : Nat) (ht : t ≠ u) :
    (attach M key cat g u L s).1.nm t = s.1.nm t := by
  unfold attach
  induction L generalizing s with
  | nil => rfl
  | cons x L ih => rw [List.foldl_cons, ih, expand_nm_ne _ _ _ _ _ _ _ ht]

theorem RInv.mono {cur cur' : Nat} {X : List (Nat × Nat × List Nat)} {r : RS S φ} (hi : RInv M key g cur X r) (h : cur ≤ cur') : RInv M key g cur' X r :=
  { hi with
    valid := fun u e ts hx => ⟨Nat.le_trans (hi.valid u e ts hx).1 h, (hi.valid u e ts hx).2⟩
    nmlt := fun u x hx => ⟨(hi.nmlt u x hx).1, Nat.le_trans (hi.nmlt u x hx).2 h⟩ }

theorem forall₂_nm {r r' : RS S φ} {ts tails : List Nat} (hne : ∀ t ∈ tails, r'.nm t = r.nm t) (h : List.Forall₂ (fun t' t => t' ∈ r.nm t) ts tails) :
    List.Forall₂ (fun t' t => t' ∈ r'.nm t) ts tails := by
  induction h with
  | nil => exact .nil
  | cons c1 _ c3 => exact .cons (by rw [hne _ (by simp)]; exact c1) (c3 fun t ht => hne t (by simp [ht]))

theorem attach_inv (wf : WF g) {u : Nat} (hu : u < g.nodes.length) (L : List (Nat × List Nat × Bool)) {X : List (Nat × Nat × List Nat)}
    {s : RS S φ × List (K × Nat)} (hi : RInv M key g u X s.1) (hs : S2N M key u s)
    (hL : ∀ x ∈ L, x.1 ∈ g.inE u ∧ List.Forall₂ (fun t' t => t' ∈ s.1.nm t) x.2.1 (g.tails x.1)) :
    RInv M key g u (X ++ L.map fun x => (u, x.1, x.2.1)) (attach M key cat g u L s).1 ∧ (s.1.nm u ≠ [] ∨ L ≠ [] → (attach M key cat g u L s).1.nm u ≠ []) := by
  induction L generalizing s X with
  | nil => exact ⟨by simpa [attach] using hi, by simp [attach]⟩
  | cons x L ih =>
    obtain ⟨h1, h2⟩ := hL x (by simp)
    obtain ⟨a1, a2, a3, a4, a5⟩ := expand_inv wf cat hu hi hs h1 h2 x.2.2
    have := ih (s := expand M key cat u (u == g.nodes.length - 1) s x.1 x.2.1 x.2.2) a1 a2 (by
      intro y hy
      obtain ⟨b1, b2⟩ := hL y (by simp [hy])
      refine ⟨b1, ?_⟩
      have hne : ∀ t ∈ g.tails y.1, t ≠ u := fun t ht => Nat.ne_of_lt (wf.topo u hu y.1 b1 t ht)
      exact forall₂_nm (fun t ht => a3 t (hne t ht)) b2)
    rw [List.append_assoc] at this
    exact ⟨this.1, fun _ => this.2 (.inl a4)⟩

/-- What holds before node `v` is processed. -/
structure AInv (M : Models S φ) (key : S → K) (g : Hypergraph α) (v : Nat) (X : List (Nat × Nat × List Nat)) (r : RS S φ) : Prop where
  inv : RInv M key g v X r
  nil : ∀ t, v ≤ t → r.nm t = []
  ne : ∀ t, t < v → r.nm t ≠ []
  nodup : X.Nodup
  lt : ∀ x ∈ X, x.1 < v

theorem AInv.start : AInv M key g 0 [] (⟨HG.empty, [], List.replicate g.nodes.length []⟩ : RS S φ) := by
  have hnm : ∀ t, (⟨HG.empty, [], List.replicate g.nodes.length []⟩ : RS S φ).nm t = [] := by
    intro t
    unfold RS.nm
    rw [List.getD_eq_getElem?_getD]
    rcases h : (List.replicate g.nodes.length ([] : List Nat))[t]? with _ | x
    · rfl
    · have := List.mem_of_getElem? h
      simpa using (List.mem_replicate.1 this).2
  refine ⟨⟨.init, rfl, by simp, rfl, by simp, by simp, ?_, ?_, ?_, ?_, ?_, ?_⟩, fun t _ => hnm t, by simp, by simp, by simp⟩
  · intro u u' h h' hh
    rw [hnm] at hh
    simp at hh
  · intro u h h' hh
    rw [hnm] at hh
    simp at hh
  · intro h hh
    simp [HG.empty] at hh
  · intro u h hh
    rw [hnm] at hh
    simp at hh
  · intro u
    rw [hnm]
    simp
  · intro u h hh
    rw [hnm] at hh
    simp at hh

/-- One node: any list of edges without repetition whose tails are nodes made before. -/
theorem AInv.node (wf : WF g) {v : Nat} (hv : v < g.nodes.length) {X : List (Nat × Nat × List Nat)} {r : RS S φ} (ha : AInv M key g v X r)
    (L : List (Nat × List Nat × Bool)) (hL : ∀ x ∈ L, x.1 ∈ g.inE v ∧ List.Forall₂ (fun t' t => t' ∈ r.nm t) x.2.1 (g.tails x.1)) (hne : L ≠ [])
    (hnd : (L.map fun x => (x.1, x.2.1)).Nodup) :
    AInv M key g (v + 1) (X ++ L.map fun x => (v, x.1, x.2.1)) (attach M key cat g v L (r, [])).1 ∧
      ∀ t, t ≠ v → (attach M key cat g v L (r, [])).1.nm t = r.nm t := by
  have hs : S2N M key v (r, ([] : List (K × Nat))) := by
    intro k h
    simp [ha.nil v (Nat.le_refl _)]
  obtain ⟨h1, h2⟩ := attach_inv (cat := cat) wf hv L (s := (r, [])) ha.inv hs hL
  have h3 : ∀ t, t ≠ v → (attach M key cat g v L (r, [])).1.nm t = r.nm t := fun t ht => attach_nm_ne v L (r, []) t ht
  refine ⟨⟨h1.mono (by omega), ?_, ?_, ?_, ?_⟩, h3⟩
  · intro t ht
    rw [h3 t (by omega)]
    exact ha.nil t (by omega)
  · intro t ht
    by_cases htv : t = v
    · subst htv; exact h2 (.inr hne)
    · rw [h3 t htv]
      exact ha.ne t (by omega)
  · refine List.Nodup.append ha.nodup ?_ ?_
    · have : (L.map fun x => (v, x.1, x.2.1)) = (L.map fun x => (x.1, x.2.1)).map fun p => (v, p) := by simp
      rw [this]
      exact hnd.map fun a b h => by simpa using h
    · intro x hx hx'
      obtain ⟨y, _, rfl⟩ := List.mem_map.1 hx'
      have := ha.lt _ hx
      simp at this
  · intro x hx
    rcases List.mem_append.1 hx with hx | hx
    · have := ha.lt x hx; omega
    · obtain ⟨y, _, rfl⟩ := List.mem_map.1 hx
      simp

/-- A list of edges is complete for a node: every combination is in it. -/
def AllAttached (g : Hypergraph α) (r : RS S φ) (u : Nat) (X : List (Nat × Nat × List Nat)) : Prop :=
  ∀ (e : Nat) (ts : List Nat), e ∈ g.inE u → List.Forall₂ (fun t' t => t' ∈ r.nm t) ts (g.tails e) → (u, e, ts) ∈ X

/-! Tuples of indices. -/

theorem pick_mem {nodemap : List (List Nat)} {tails js : List Nat} (h : List.Forall₂ (· < ·) js (tails.map fun t => (nodemap.getD t []).length)) :
    List.Forall₂ (fun t' t => t' ∈ nodemap.getD t []) (pick nodemap tails js) tails := by
  unfold pick
  induction tails generalizing js with
  | nil => cases h; exact .nil
  | cons t tails ih =>
    cases h with
    | @cons j _ js _ h1 h2 =>
      refine .cons ?_ (ih h2)
      simp [List.getD_eq_getElem?_getD] at h1 ⊢
      rw [List.getElem?_eq_getElem h1]
      simp

theorem pick_surj {nodemap : List (List Nat)} {tails ts : List Nat} (h : List.Forall₂ (fun t' t => t' ∈ nodemap.getD t []) ts tails) :
    ∃ js, List.Forall₂ (· < ·) js (tails.map fun t => (nodemap.getD t []).length) ∧ pick nodemap tails js = ts := by
  induction h with
  | nil => exact ⟨[], .nil, rfl⟩
  | @cons t' t ts tails h1 _ ih =>
    obtain ⟨js, h2, h3⟩ := ih
    obtain ⟨j, hj, hj2⟩ := List.getElem_of_mem h1
    refine ⟨j :: js, .cons hj h2, ?_⟩
    unfold pick at h3 ⊢
    rw [List.zipWith_cons_cons, h3]
    congr 1
    rw [List.getD_eq_getElem?_getD, List.getElem?_eq_getElem hj]
    exact hj2

theorem pick_inj {nodemap : List (List Nat)} (hnd : ∀ t, (nodemap.getD t []).Nodup) {tails js js' : List Nat}
    (h : List.Forall₂ (· < ·) js (tails.map fun t => (nodemap.getD t []).length)) (h' : List.Forall₂ (· < ·) js' (tails.map fun t => (nodemap.getD t []).length))
    (he : pick nodemap tails js = pick nodemap tails js') : js = js' := by
  unfold pick at he
  induction tails generalizing js js' with
  | nil => cases h; cases h'; rfl
  | cons t tails ih =>
    cases h with
    | @cons j _ js _ h1 h2 =>
      cases h' with
      | @cons j' _ js' _ h1' h2' =>
        rw [List.zipWith_cons_cons, List.zipWith_cons_cons, List.cons.injEq] at he
        rw [ih h2 h2' he.2]
        congr 1
        have := he.1
        have hnt := hnd t
        replace h1 : j < (nodemap.getD t []).length := h1
        replace h1' : j' < (nodemap.getD t []).length := h1'
        generalize nodemap.getD t [] = l at this h1 h1' hnt
        rw [List.getD_eq_getElem?_getD, List.getD_eq_getElem?_getD, List.getElem?_eq_getElem h1, List.getElem?_eq_getElem h1'] at this
        exact (List.Nodup.getElem_inj_iff hnt).1 this

/-- The `m`-th tuple, first index fastest. -/
def decode : List Nat → Nat → List Nat
  | [], _ => []
  | n :: ns, m => m % n :: decode ns (m / n)

/-- The number of a tuple. -/
def encode : List Nat → List Nat → Nat
  | n :: ns, j :: js => j + n * encode ns js
  | _, _ => 0

theorem decode_zero (ends : List Nat) : decode ends 0 = List.replicate ends.length 0 := by
  induction ends with
  | nil => rfl
  | cons n ns ih => simp [decode, ih, List.replicate_succ]

theorem decode_lt {ends : List Nat} (h : ∀ n ∈ ends, 0 < n) (m : Nat) : List.Forall₂ (· < ·) (decode ends m) ends := by
  induction ends generalizing m with
  | nil => exact .nil
  | cons n ns ih => exact .cons (Nat.mod_lt _ (h n (by simp))) (ih (fun x hx => h x (by simp [hx])) _)

theorem encode_lt {ends js : List Nat} (h : List.Forall₂ (· < ·) js ends) : encode ends js < ends.prod := by
  induction h with
  | nil => simp [encode]
  | @cons j n js ns h1 _ ih =>
    simp only [encode, List.prod_cons]
    have h2 : n * (encode ns js + 1) ≤ n * ns.prod := Nat.mul_le_mul_left _ ih
    rw [Nat.mul_add] at h2
    omega

theorem decode_encode {ends js : List Nat} (h : List.Forall₂ (· < ·) js ends) : decode ends (encode ends js) = js := by
  induction h with
  | nil => rfl
  | @cons j n js ns h1 _ ih =>
    simp only [encode, decode]
    rw [Nat.add_mul_mod_self_left, Nat.mod_eq_of_lt h1, Nat.add_mul_div_left _ _ (by omega), Nat.div_eq_of_lt h1, Nat.zero_add, ih]

theorem encode_decode {ends : List Nat} (m : Nat) (hm : m < ends.prod) : encode ends (decode ends m) = m := by
  induction ends generalizing m with
  | nil => simp at hm; simp [hm, encode]
  | cons n ns ih =>
    simp only [encode, decode]
    rw [List.prod_cons] at hm
    rw [ih _ (Nat.div_lt_of_lt_mul hm), Nat.mod_add_div]

theorem nextIter_decode {ends : List Nat} (h : ∀ n ∈ ends, 0 < n) (m : Nat) (hm : m < ends.prod) :
    nextIter ends (decode ends m) = if m + 1 < ends.prod then some (decode ends (m + 1)) else none := by
  induction ends generalizing m with
  | nil => simp at hm; simp [hm, nextIter]
  | cons n ns ih =>
    have hn := h n (by simp)
    rw [List.prod_cons] at hm ⊢
    simp only [decode, nextIter]
    have hmd := Nat.mod_add_div m n
    have hml := Nat.mod_lt m hn
    have hdl := Nat.div_lt_of_lt_mul hm
    rw [ih (fun x hx => h x (by simp [hx])) _ hdl]
    by_cases h1 : m % n + 1 < n
    · have e1 : (m + 1) % n = m % n + 1 := by
        rw [Nat.add_mod, Nat.mod_eq_of_lt (a := 1) (by omega), Nat.mod_eq_of_lt h1]
      have e2 : (m + 1) / n = m / n := by
        rw [Nat.div_eq_iff hn]
        constructor
        · rw [Nat.mul_comm] at hmd
          omega
        · rw [Nat.mul_comm] at hmd
          have : m / n * n = n * (m / n) := Nat.mul_comm _ _
          omega
      have hlt : m + 1 < n * ns.prod := by
        have : n * (m / n + 1) ≤ n * ns.prod := Nat.mul_le_mul_left _ hdl
        rw [Nat.mul_add] at this
        omega
      rw [if_pos h1, if_pos hlt, e1, e2]
    · have hmn : m + 1 = n * (m / n + 1) := by
        rw [Nat.mul_add]
        omega
      have e1 : (m + 1) % n = 0 := by rw [hmn]; exact Nat.mul_mod_right _ _
      have e2 : (m + 1) / n = m / n + 1 := by rw [hmn]; exact Nat.mul_div_cancel_left _ hn
      rw [if_neg h1, e1, e2]
      by_cases h2 : m / n + 1 < ns.prod
      · rw [if_pos h2, if_pos (by rw [hmn]; exact Nat.mul_lt_mul_of_pos_left h2 hn)]
        rfl
      · rw [if_neg h2, if_neg (by rw [hmn]; exact Nat.not_lt.2 (Nat.mul_le_mul_left _ (by omega)))]
        rfl

theorem pick_congr {nodemap nodemap' : List (List Nat)} {tails js : List Nat} (h : ∀ t ∈ tails, nodemap.getD t [] = nodemap'.getD t []) :
    pick nodemap tails js = pick nodemap' tails js := by
  unfold pick
  induction tails generalizing js with
  | nil => simp
  | cons t tails ih =>
    cases js with
    | nil => simp
    | cons j js =>
      rw [List.zipWith_cons_cons, List.zipWith_cons_cons, h t (by simp), ih fun t ht => h t (by simp [ht])]

/-- The combinations of an edge, in the order of the loop. -/
def combos (g : Hypergraph α) (r : RS S φ) (e : Nat) : List (Nat × List Nat × Bool) :=
  (List.range (bounds g r.nodemap e).prod).map fun m => (e, pick r.nodemap (g.tails e) (decode (bounds g r.nodemap e) m), false)

theorem expandLoop_eq {u e : Nat} (hh : g.head e = some u) (hnt : u ∉ g.tails e) (r0 : RS S φ) (hpos : ∀ n ∈ bounds g r0.nodemap e, 0 < n) :
    ∀ n m (s : RS S φ × List (K × Nat)), (∀ t, t ≠ u → s.1.nm t = r0.nm t) → m + (n + 1) = (bounds g r0.nodemap e).prod →
    expandLoop M key cat g (u == g.nodes.length - 1) e (bounds g r0.nodemap e) (n + 1) (decode (bounds g r0.nodemap e) m) s =
      some (attach M key cat g u ((List.range' m (n + 1)).map fun m => (e, pick r0.nodemap (g.tails e) (decode (bounds g r0.nodemap e) m), false)) s) := by
  intro n
  induction n with
  | zero =>
    intro m s hs hm
    unfold expandLoop
    simp only []
    rw [nextIter_decode hpos m (by omega), if_neg (by omega), hh]
    simp only [Nat.zero_add, List.range'_one, List.map_cons, List.map_nil, attach, List.foldl_cons, List.foldl_nil, Option.getD_some]
    rw [pick_congr fun t ht => hs t fun h => hnt (h ▸ ht)]
  | succ n ih =>
    intro m s hs hm
    unfold expandLoop
    simp only []
    rw [nextIter_decode hpos m (by omega), if_pos (by omega), hh]
    simp only [Option.getD_some]
    rw [ih (m + 1) _ (fun t ht => by rw [expand_nm_ne _ _ _ _ _ _ _ ht, hs t ht]) (by omega)]
    rw [List.range'_succ (n := n + 1), List.map_cons]
    unfold attach
    rw [List.foldl_cons]
    simp only []
    rw [pick_congr fun t ht => hs t fun h => hnt (h ▸ ht)]

theorem bounds_congr {r r0 : RS S φ} {e : Nat} (h : ∀ t ∈ g.tails e, r.nm t = r0.nm t) : bounds g r.nodemap e = bounds g r0.nodemap e := by
  unfold bounds
  apply List.map_congr_left
  intro t ht
  have := h t ht
  unfold RS.nm at this
  rw [this]

theorem expandEdge_eq {u e : Nat} (hh : g.head e = some u) (hnt : u ∉ g.tails e) (r0 : RS S φ) (hpos : ∀ n ∈ bounds g r0.nodemap e, 0 < n)
    (hg : u = g.nodes.length - 1 → (g.tails e).length = 1) (s : RS S φ × List (K × Nat)) (hs : ∀ t, t ≠ u → s.1.nm t = r0.nm t) :
    expandEdge M key cat g (u == g.nodes.length - 1) s e = some (attach M key cat g u (combos g r0 e) s) := by
  have hb : bounds g s.1.nodemap e = bounds g r0.nodemap e := bounds_congr fun t ht => hs t fun h => hnt (h ▸ ht)
  have hpp : 0 < (bounds g r0.nodemap e).prod := by
    generalize bounds g r0.nodemap e = b at hpos
    clear hb
    induction b with
    | nil => simp
    | cons n ns ih =>
      rw [List.prod_cons]
      exact Nat.mul_pos (hpos n (by simp)) (ih fun x hx => hpos x (by simp [hx]))
  unfold expandEdge
  change (if (bounds g s.1.nodemap e).all (0 < ·) && (!(u == g.nodes.length - 1) || (bounds g s.1.nodemap e).length == 1) then
    expandLoop M key cat g (u == g.nodes.length - 1) e (bounds g s.1.nodemap e) (bounds g s.1.nodemap e).prod (List.replicate (bounds g s.1.nodemap e).length 0) s else none) = _
  rw [hb]
  have hc : ((bounds g r0.nodemap e).all (0 < ·) && (!(u == g.nodes.length - 1) || (bounds g r0.nodemap e).length == 1)) = true := by
    rw [Bool.and_eq_true]
    refine ⟨by rw [List.all_eq_true]; intro n hn; exact decide_eq_true (hpos n hn), ?_⟩
    by_cases h : u = g.nodes.length - 1
    · have := hg h
      simp [bounds, this]
    · simp [h]
  rw [if_pos hc, ← decode_zero]
  obtain ⟨n, hn⟩ : ∃ n, (bounds g r0.nodemap e).prod = n + 1 := ⟨_, (Nat.succ_pred_eq_of_pos hpp).symm⟩
  rw [hn, expandLoop_eq hh hnt r0 hpos n 0 s hs (by omega)]
  unfold combos
  rw [hn, List.range_eq_range']

theorem attach_append (u : Nat) (L L' : List (Nat × List Nat × Bool)) (s : RS S φ × List (K × Nat)) :
    attach M key cat g u (L ++ L') s = attach M key cat g u L' (attach M key cat g u L s) := by
  unfold attach
  rw [List.foldl_append]

theorem expandEdges_eq {u : Nat} (r0 : RS S φ) (es : List Nat) (hes : ∀ e ∈ es, g.head e = some u ∧ u ∉ g.tails e ∧ (∀ n ∈ bounds g r0.nodemap e, 0 < n) ∧
      (u = g.nodes.length - 1 → (g.tails e).length = 1)) :
    ∀ s : RS S φ × List (K × Nat), (∀ t, t ≠ u → s.1.nm t = r0.nm t) →
      expandEdges M key cat g (u == g.nodes.length - 1) es s = some (attach M key cat g u (es.flatMap (combos g r0)) s) := by
  induction es with
  | nil => intro s _; rfl
  | cons e es ih =>
    intro s hs
    obtain ⟨h1, h2, h3, h4⟩ := hes e (by simp)
    unfold expandEdges
    rw [expandEdge_eq h1 h2 r0 h3 h4 s hs]
    simp only []
    rw [ih (fun e he => hes e (by simp [he])) _ (fun t ht => by rw [attach_nm_ne _ _ _ _ ht, hs t ht]), List.flatMap_cons, attach_append]

theorem combos_spec {r : RS S φ} (hnd : ∀ t, (r.nm t).Nodup) {es : List Nat} (hes : es.Nodup) (hpos : ∀ e ∈ es, ∀ n ∈ bounds g r.nodemap e, 0 < n) :
    ((es.flatMap (combos g r)).map fun x => (x.1, x.2.1)).Nodup ∧
    ∀ (e : Nat) (ts : List Nat), (e, ts) ∈ ((es.flatMap (combos g r)).map fun x => (x.1, x.2.1)) ↔ e ∈ es ∧ List.Forall₂ (fun t' t => t' ∈ r.nm t) ts (g.tails e) := by
  have hmem : ∀ (e : Nat) (ts : List Nat), (e, ts) ∈ ((es.flatMap (combos g r)).map fun x => (x.1, x.2.1)) ↔ e ∈ es ∧ List.Forall₂ (fun t' t => t' ∈ r.nm t) ts (g.tails e) := by
    intro e ts
    rw [List.mem_map]
    constructor
    · rintro ⟨x, hx, hx2⟩
      obtain ⟨e', he', hx'⟩ := List.mem_flatMap.1 hx
      obtain ⟨m, _, rfl⟩ := List.mem_map.1 hx'
      cases hx2
      exact ⟨he', pick_mem (decode_lt (hpos _ he') m)⟩
    · rintro ⟨he, hts⟩
      obtain ⟨js, h1, h2⟩ := pick_surj hts
      refine ⟨(e, ts, false), List.mem_flatMap.2 ⟨e, he, List.mem_map.2 ⟨encode (bounds g r.nodemap e) js, List.mem_range.2 (encode_lt h1), ?_⟩⟩, rfl⟩
      have := decode_encode h1
      unfold bounds
      rw [this, h2]
  refine ⟨?_, hmem⟩
  rw [List.map_flatMap]
  rw [List.nodup_flatMap]
  refine ⟨?_, ?_⟩
  · intro e he
    unfold combos
    rw [List.map_map]
    refine List.Nodup.map_on ?_ List.nodup_range
    intro m hm m' hm' h
    simp only [Function.comp, Prod.mk.injEq, true_and] at h
    have := pick_inj (fun t => hnd t) (decode_lt (hpos e he) m) (decode_lt (hpos e he) m') h
    rw [← encode_decode m (List.mem_range.1 hm), ← encode_decode m' (List.mem_range.1 hm'), this]
  · refine hes.imp_of_mem ?_
    intro e e' _ _ hne x hx hx'
    obtain ⟨y, hy, rfl⟩ := List.mem_map.1 hx
    obtain ⟨y', hy', h⟩ := List.mem_map.1 hx'
    unfold combos at hy hy'
    obtain ⟨m, _, rfl⟩ := List.mem_map.1 hy
    obtain ⟨m', _, rfl⟩ := List.mem_map.1 hy'
    simp only [Prod.mk.injEq] at h
    exact hne h.1.symm

theorem AInv.bounds_pos (wf : WF g) {v : Nat} (hv : v < g.nodes.length) {X : List (Nat × Nat × List Nat)} {r : RS S φ} (ha : AInv M key g v X r) :
    ∀ e ∈ g.inE v, ∀ n ∈ bounds g r.nodemap e, 0 < n := by
  intro e he n hn
  obtain ⟨t, ht, rfl⟩ := List.mem_map.1 hn
  exact List.length_pos_iff.2 (ha.ne t (wf.topo v hv e he t ht))

theorem AllAttached.step (wf : WF g) {u v : Nat} (hu : u < g.nodes.length) (huv : u < v) {r r' : RS S φ} {X Y : List (Nat × Nat × List Nat)}
    (hc : AllAttached g r u X) (h : ∀ t, t ≠ v → r'.nm t = r.nm t) : AllAttached g r' u (X ++ Y) := by
  intro e ts he hts
  exact List.mem_append.2 (.inl (hc e ts he (forall₂_nm (fun t ht => (h t (by have := wf.topo u hu e he t ht; omega)).symm) hts)))

theorem rescoreNodes_spec (hg : Ready g) : ∀ n v (r : RS S φ) (X : List (Nat × Nat × List Nat)), v + n = g.nodes.length → AInv M key g v X r → (∀ u < v, AllAttached g r u X) →
    ∃ r' X', rescoreNodes M key cat g (List.range' v n) r = some r' ∧ AInv M key g g.nodes.length X' r' ∧ ∀ u < g.nodes.length, AllAttached g r' u X' := by
  intro n
  induction n with
  | zero =>
    intro v r X hv ha hc
    have : v = g.nodes.length := by omega
    subst this
    exact ⟨r, X, rfl, ha, hc⟩
  | succ n ih =>
    intro v r X hv ha hc
    have hvl : v < g.nodes.length := by omega
    have hpos := ha.bounds_pos hg.wf hvl
    obtain ⟨hnd, hmem⟩ := combos_spec ha.inv.nodup (hg.wf.nodup v hvl) hpos
    have heq := expandEdges_eq (M := M) (key := key) (cat := cat) r (g.inE v) (fun e he => ⟨hg.head v hvl e he,
      fun h => Nat.lt_irrefl _ (hg.wf.topo v hvl e he v h), hpos e he, fun h => hg.goal e (by rw [h] at he; exact he)⟩) (r, []) (fun _ _ => rfl)
    obtain ⟨h1, h2⟩ := ha.node (cat := cat) hg.wf hvl ((g.inE v).flatMap (combos g r)) (fun x hx => (hmem x.1 x.2.1).1 (List.mem_map.2 ⟨x, hx, rfl⟩)) (by
        intro h0
        obtain ⟨e, he⟩ := List.exists_mem_of_ne_nil _ (hg.ne v hvl)
        have : ∃ ts, List.Forall₂ (fun t' t => t' ∈ r.nm t) ts (g.tails e) := ⟨_, pick_mem (decode_lt (hpos e he) 0)⟩
        obtain ⟨ts, hts⟩ := this
        have := (hmem e ts).2 ⟨he, hts⟩
        rw [h0] at this
        simp at this) hnd
    obtain ⟨r', X', a1, a2, a3⟩ := ih (v + 1) _ _ (by omega) h1 (by
      intro u hu
      by_cases huv : u = v
      · subst huv
        intro e ts he hts
        have := (hmem e ts).2 ⟨he, forall₂_nm (fun t ht => (h2 t (Nat.ne_of_lt (hg.wf.topo u hvl e he t ht))).symm) hts⟩
        obtain ⟨x, hx, hx2⟩ := List.mem_map.1 this
        cases hx2
        exact List.mem_append.2 (.inr (List.mem_map.2 ⟨x, hx, rfl⟩))
      · exact (hc u (by omega)).step hg.wf (by omega) (v := v) (by omega) h2)
    refine ⟨r', X', ?_, a2, a3⟩
    rw [List.range'_succ]
    unfold rescoreNodes
    rw [heq]
    exact a1

end
end Cdec.Dec
