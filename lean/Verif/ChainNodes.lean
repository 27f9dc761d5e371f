import Verif.Chain

/-! # C29: chain merging is a permutation of the blocks -/
namespace Verif.Chain
open Verif

variable (P : Nodes)

theorem sz_append (a b : List Nat) : P.sz (a ++ b) = P.sz a + P.sz b := by simp [Nodes.sz]
theorem fr_append (a b : List Nat) : P.fr (a ++ b) = P.fr a + P.fr b := by simp [Nodes.fr]
theorem sz_perm {a b : List Nat} (h : a.Perm b) : P.sz a = P.sz b := (h.map _).sum_eq
theorem fr_perm {a b : List Nat} (h : a.Perm b) : P.fr a = P.fr b := (h.map _).sum_eq
@[simp] theorem sz_nil : P.sz [] = 0 := rfl
@[simp] theorem fr_nil : P.fr [] = 0 := rfl
theorem sz_cons (n : Nat) (l : List Nat) : P.sz (n :: l) = P.size n + P.sz l := by simp [Nodes.sz]

@[simp] theorem nodesIn_nil (B : Nat → Bundle) : nodesIn B [] = [] := rfl
theorem nodesIn_append (B : Nat → Bundle) (a b : List Nat) : nodesIn B (a ++ b) = nodesIn B a ++ nodesIn B b := by
  simp [nodesIn]
theorem nodesIn_cons (B : Nat → Bundle) (b : Nat) (l : List Nat) : nodesIn B (b :: l) = (B b).nodes ++ nodesIn B l := by
  simp [nodesIn]
theorem mem_nodesIn {B : Nat → Bundle} {l : List Nat} {n : Nat} : n ∈ nodesIn B l ↔ ∃ b ∈ l, n ∈ (B b).nodes := by
  simp [nodesIn]
theorem nodesIn_congr {B B' : Nat → Bundle} {l : List Nat} (h : ∀ b ∈ l, (B' b).nodes = (B b).nodes) :
    nodesIn B' l = nodesIn B l := by
  induction l with
  | nil => rfl
  | cons b t ih =>
    rw [nodesIn_cons, nodesIn_cons, h b (by simp), ih fun b' hb => h b' (List.mem_cons_of_mem _ hb)]

theorem adjustLocs_eq (pb d : Nat) : ∀ (ns : List Nat) (L : Nat → Option (Nat × Nat)), ns.Nodup → ∀ n,
    adjustLocs pb d ns L n = if n ∈ ns then (L n).map (fun p => (pb, p.2 + d)) else L n := by
  intro ns
  induction ns with
  | nil => intro L _ n; simp [adjustLocs]
  | cons m t ih =>
    intro L hnd n
    obtain ⟨h1, h2⟩ := List.nodup_cons.1 hnd
    have := ih (upd L m ((L m).map fun p => (pb, p.2 + d))) h2 n
    rw [show adjustLocs pb d (m :: t) L = adjustLocs pb d t (upd L m ((L m).map fun p => (pb, p.2 + d))) from rfl, this]
    by_cases hn : n = m
    · subst hn; simp [h1]
    · simp [upd_ne _ _ hn, hn]

/-- Invariant of the merging loop after the bundles `done` were consumed. -/
structure MergeInv (B0 : Nat → Bundle) (L0 : Nat → Option (Nat × Nat)) (c : Nat) (done : List Nat) (a : Acc) : Prop where
  frame : ∀ b, b ∉ done → a.B b = B0 b
  frameL : ∀ n, n ∉ nodesIn B0 done → a.L n = L0 n
  group : ∃ parts : Nat → List Nat, a.merged.flatMap parts = done ∧ ∀ b ∈ a.merged, (parts b).head? = some b ∧
    (a.B b).nodes = nodesIn B0 (parts b) ∧ (a.B b).outs = (parts b).flatMap fun p => (B0 p).outs
  ok : ∀ b ∈ a.merged, BundleOk P a.B a.L b
  placed : Placed P a.B c a.merged
  off : a.off = P.sz (nodesIn B0 done)
  idx : a.idx = a.merged.length
  prev : a.prev = a.merged.getLast?

theorem MergeInv.nodes {B0 : Nat → Bundle} {L0 : Nat → Option (Nat × Nat)} {c : Nat} {done : List Nat} {a : Acc}
    (h : MergeInv P B0 L0 c done a) : nodesIn a.B a.merged = nodesIn B0 done := by
  obtain ⟨parts, h1, h2⟩ := h.group
  rw [← h1, nodesIn, nodesIn, List.flatMap_assoc]
  exact List.flatMap_congr fun b hb => (h2 b hb).2.1

theorem MergeInv.sub {B0 : Nat → Bundle} {L0 : Nat → Option (Nat × Nat)} {c : Nat} {done : List Nat} {a : Acc}
    (h : MergeInv P B0 L0 c done a) : ∀ b ∈ a.merged, b ∈ done := by
  obtain ⟨parts, h1, h2⟩ := h.group
  intro b hb
  rw [← h1, List.mem_flatMap]
  exact ⟨b, hb, List.mem_of_mem_head? (h2 b hb).1⟩

theorem mergeInv_init (B0 : Nat → Bundle) (L0 : Nat → Option (Nat × Nat)) (c : Nat) :
    MergeInv P B0 L0 c [] ⟨B0, L0, 0, 0, none, []⟩ := by
  refine ⟨fun _ _ => rfl, fun _ _ => rfl, ⟨fun b => [b], rfl, ?_⟩, ?_, ⟨?_, ?_, ?_⟩, rfl, rfl, rfl⟩ <;> simp

theorem getElem?_append_singleton {α : Type} {l : List α} {x y : α} {i : Nat} (h : (l ++ [x])[i]? = some y) :
    l[i]? = some y ∨ (i = l.length ∧ x = y) := by
  rcases Nat.lt_trichotomy i l.length with hi | hi | hi
  · rw [List.getElem?_append_left hi] at h; exact .inl h
  · subst hi; rw [List.getElem?_append_right (Nat.le_refl _)] at h; simp at h; exact .inr ⟨rfl, h⟩
  · rw [List.getElem?_append_right (by omega)] at h
    rw [List.getElem?_eq_none (by simp; omega)] at h; cases h

theorem mergeStep_inv {B0 : Nat → Bundle} {L0 : Nat → Option (Nat × Nat)} {c : Nat} {done : List Nat} {a : Acc} {b : Nat}
    (rb : Bool) (h : MergeInv P B0 L0 c done a) (hb : b ∉ done) (hok : BundleOk P B0 L0 b)
    (hnd : (nodesIn B0 (done ++ [b])).Nodup) (hbn : (a.merged).Nodup) :
    MergeInv P B0 L0 c (done ++ [b]) (mergeStep P rb c a b) ∧ (mergeStep P rb c a b).merged.Nodup := by
  have hbm : b ∉ a.merged := fun hm => hb (h.sub P b hm)
  have hBb : a.B b = B0 b := h.frame b hb
  have hdisj : ∀ n ∈ nodesIn B0 done, n ∉ (B0 b).nodes := by
    rw [nodesIn_append, List.nodup_append] at hnd
    intro n hn hn'
    exact hnd.2.2 n hn n (by rw [nodesIn_cons]; simp [hn']) rfl
  have hndb : (B0 b).nodes.Nodup := by
    rw [nodesIn_append, List.nodup_append] at hnd
    have := hnd.2.1
    rw [nodesIn_cons] at this
    simpa using this
  have hLb : ∀ n ∈ (B0 b).nodes, a.L n = L0 n := fun n hn => h.frameL n fun hn' => hdisj n hn' hn
  have hin : ∀ b' ∈ a.merged, ∀ n ∈ (a.B b').nodes, n ∈ nodesIn B0 done := fun b' hb' n hn => by
    rw [← h.nodes P]; exact mem_nodesIn.2 ⟨b', hb', hn⟩
  obtain ⟨parts, hp1, hp2⟩ := h.group
  unfold mergeStep
  split
  · rename_i pb hpb
    have hpb' : a.merged.getLast? = some pb := by
      cases rb with
      | false => simp at hpb
      | true =>
        simp only [if_true] at hpb
        rw [← h.prev]
        exact (Option.filter_eq_some_iff.1 hpb).1
    obtain ⟨pre, hpre⟩ := List.getLast?_eq_some_iff.1 hpb'
    have hpbm : pb ∈ a.merged := by rw [hpre]; simp
    have hpbd : pb ∈ done := h.sub P pb hpbm
    have hne : b ≠ pb := fun he => hb (he ▸ hpbd)
    have hpbpre : pb ∉ pre := by
      rw [hpre] at hbn
      intro hc
      exact (List.nodup_append.1 hbn).2.2 pb hc pb (by simp) rfl
    refine ⟨⟨?_, ?_, ⟨fun x => if x = pb then parts pb ++ [b] else parts x, ?_, ?_⟩, ?_, ⟨?_, ?_, ?_⟩, ?_, ?_, ?_⟩, hbn⟩
    · intro x hx
      simp only [List.mem_append, List.mem_singleton, not_or] at hx
      show upd a.B pb _ x = _
      rw [upd_ne _ _ (ne_of_mem_of_not_mem hpbd hx.1).symm]
      exact h.frame x hx.1
    · intro n hn
      rw [nodesIn_append, List.mem_append, not_or] at hn
      have hn2 : n ∉ (B0 b).nodes := by simpa [nodesIn_cons] using hn.2
      show adjustLocs pb _ (a.B b).nodes a.L n = _
      rw [hBb, adjustLocs_eq _ _ _ _ hndb, if_neg hn2]
      exact h.frameL n hn.1
    · show List.flatMap _ a.merged = _
      rw [← hp1, hpre, List.flatMap_append, List.flatMap_append, List.append_assoc]
      congr 1
      · exact List.flatMap_congr fun x hx => if_neg (ne_of_mem_of_not_mem hx hpbpre)
      · simp
    · intro x hx
      show _ ∧ (upd a.B pb _ x).nodes = _ ∧ (upd a.B pb _ x).outs = _
      by_cases hxp : x = pb
      · subst hxp
        obtain ⟨q1, q2, q3⟩ := hp2 x hx
        simp only [upd_same, if_true, hBb]
        refine ⟨?_, ?_, ?_⟩
        · rw [List.head?_append, q1]; rfl
        · rw [nodesIn_append, q2, nodesIn_cons]; simp
        · rw [List.flatMap_append, q3]; simp
      · simp only [upd_ne _ _ hxp, if_neg hxp]; exact hp2 x hx
    · intro x hx
      have hok1 := h.ok x hx
      by_cases hxp : x = pb
      · subst hxp
        refine ⟨?_, ?_, ?_, ?_⟩
        · show (upd a.B x _ x).nodes ≠ []
          simp only [upd_same]
          intro he
          exact hok1.ne (List.append_eq_nil_iff.1 he).1
        · show (upd a.B x _ x).size = P.sz (upd a.B x _ x).nodes
          simp only [upd_same, hBb]
          rw [sz_append, hok1.size, hok.size]
        · show (upd a.B x _ x).freq = P.fr (upd a.B x _ x).nodes
          simp only [upd_same, hBb]
          rw [fr_append, hok1.freq, hok.freq]
        · intro j n hj
          show adjustLocs x _ (a.B b).nodes a.L n = some (x, P.sz (List.take j (upd a.B x _ x).nodes))
          simp only [upd_same, hBb] at hj ⊢
          rw [adjustLocs_eq _ _ _ _ hndb]
          rcases Nat.lt_or_ge j (a.B x).nodes.length with hlt | hge
          · have hj' := hj
            rw [List.getElem?_append_left hlt] at hj'
            rw [if_neg (hdisj n (hin x hx n (List.mem_of_getElem? hj'))), hok1.loc j n hj',
              List.take_append_of_le_length (Nat.le_of_lt hlt)]
          · have hj' := hj
            rw [List.getElem?_append_right hge] at hj'
            have hnb := List.mem_of_getElem? hj'
            rw [if_pos hnb, hLb n hnb, hok.loc _ n hj', List.take_append, sz_append, List.take_of_length_le hge, hok1.size]
            simp [Nat.add_comm]
      · have hx1 : x ∈ pre := by
          rw [hpre] at hx
          rcases List.mem_append.1 hx with hx | hx
          · exact hx
          · exact absurd (List.mem_singleton.1 hx) hxp
        refine ⟨?_, ?_, ?_, ?_⟩
        · show (upd a.B pb _ x).nodes ≠ []; rw [upd_ne _ _ hxp]; exact hok1.ne
        · show (upd a.B pb _ x).size = P.sz (upd a.B pb _ x).nodes; rw [upd_ne _ _ hxp]; exact hok1.size
        · show (upd a.B pb _ x).freq = P.fr (upd a.B pb _ x).nodes; rw [upd_ne _ _ hxp]; exact hok1.freq
        · intro j n hj
          show adjustLocs pb _ (a.B b).nodes a.L n = some (x, P.sz (List.take j (upd a.B pb _ x).nodes))
          replace hj : (upd a.B pb _ x).nodes[j]? = some n := hj
          rw [upd_ne _ _ hxp] at hj ⊢
          rw [hBb, adjustLocs_eq _ _ _ _ hndb, if_neg (hdisj n (hin x hx n (List.mem_of_getElem? hj))), hok1.loc j n hj]
    · intro x hx
      show (upd a.B pb _ x).chain = c
      by_cases hxp : x = pb
      · subst hxp; simp only [upd_same]; exact h.placed.chain x hx
      · rw [upd_ne _ _ hxp]; exact h.placed.chain x hx
    · intro i x hx
      show (upd a.B pb _ x).idx = i
      by_cases hxp : x = pb
      · subst hxp; simp only [upd_same]; exact h.placed.idx i x hx
      · rw [upd_ne _ _ hxp]; exact h.placed.idx i x hx
    · intro i x hx
      show (upd a.B pb _ x).off = P.sz (nodesIn (upd a.B pb _) (List.take i a.merged))
      have hi : i ≤ pre.length := by
        have := (List.getElem?_eq_some_iff.1 hx).1
        replace this : i < a.merged.length := this
        rw [hpre] at this; simp at this; omega
      rw [nodesIn_congr (B := a.B) (fun y hy => by
        rw [upd_ne]
        rintro rfl
        rw [hpre, List.take_append_of_le_length hi] at hy
        exact hpbpre (List.mem_of_mem_take hy))]
      by_cases hxp : x = pb
      · subst hxp; simp only [upd_same]; exact h.placed.off i x hx
      · rw [upd_ne _ _ hxp]; exact h.placed.off i x hx
    · show a.off + (a.B b).size = _
      rw [nodesIn_append, sz_append, h.off, hBb, hok.size, nodesIn_cons]; simp
    · exact h.idx
    · exact h.prev
  · have hmn : (a.merged ++ [b]).Nodup := by
      rw [List.nodup_append]
      refine ⟨hbn, by simp, ?_⟩
      intro x hx y hy he
      rw [List.mem_singleton] at hy
      exact hbm (hy ▸ he ▸ hx)
    refine ⟨⟨?_, ?_, ⟨fun x => if x = b then [b] else parts x, ?_, ?_⟩, ?_, ⟨?_, ?_, ?_⟩, ?_, ?_, ?_⟩, hmn⟩
    · intro x hx
      simp only [List.mem_append, List.mem_singleton, not_or] at hx
      show upd a.B b _ x = _
      rw [upd_ne _ _ hx.2]
      exact h.frame x hx.1
    · intro n hn
      rw [nodesIn_append, List.mem_append, not_or] at hn
      exact h.frameL n hn.1
    · show List.flatMap _ (a.merged ++ [b]) = _
      rw [List.flatMap_append, ← hp1]
      congr 1
      · exact List.flatMap_congr fun x hx => if_neg (ne_of_mem_of_not_mem hx hbm)
      · simp
    · intro x hx
      show _ ∧ (upd a.B b _ x).nodes = _ ∧ (upd a.B b _ x).outs = _
      by_cases hxb : x = b
      · subst hxb
        simp only [upd_same, if_true, hBb]
        refine ⟨rfl, ?_, ?_⟩
        · simp [nodesIn_cons]
        · simp
      · have hx' : x ∈ a.merged := by
          rcases List.mem_append.1 hx with hx | hx
          · exact hx
          · exact absurd (List.mem_singleton.1 hx) hxb
        simp only [upd_ne _ _ hxb, if_neg hxb]; exact hp2 x hx'
    · intro x hx
      by_cases hxb : x = b
      · subst hxb
        refine ⟨?_, ?_, ?_, ?_⟩
        · show (upd a.B x _ x).nodes ≠ []; simp only [upd_same, hBb]; exact hok.ne
        · show (upd a.B x _ x).size = P.sz (upd a.B x _ x).nodes; simp only [upd_same, hBb]; exact hok.size
        · show (upd a.B x _ x).freq = P.fr (upd a.B x _ x).nodes; simp only [upd_same, hBb]; exact hok.freq
        · intro j n hj
          show a.L n = some (x, P.sz (List.take j (upd a.B x _ x).nodes))
          replace hj : (upd a.B x _ x).nodes[j]? = some n := hj
          simp only [upd_same, hBb] at hj ⊢
          rw [hLb n (List.mem_of_getElem? hj)]; exact hok.loc j n hj
      · have hx' : x ∈ a.merged := by
          rcases List.mem_append.1 hx with hx | hx
          · exact hx
          · exact absurd (List.mem_singleton.1 hx) hxb
        have hok1 := h.ok x hx'
        refine ⟨?_, ?_, ?_, ?_⟩
        · show (upd a.B b _ x).nodes ≠ []; rw [upd_ne _ _ hxb]; exact hok1.ne
        · show (upd a.B b _ x).size = P.sz (upd a.B b _ x).nodes; rw [upd_ne _ _ hxb]; exact hok1.size
        · show (upd a.B b _ x).freq = P.fr (upd a.B b _ x).nodes; rw [upd_ne _ _ hxb]; exact hok1.freq
        · intro j n hj
          show a.L n = some (x, P.sz (List.take j (upd a.B b _ x).nodes))
          replace hj : (upd a.B b _ x).nodes[j]? = some n := hj
          rw [upd_ne _ _ hxb] at hj ⊢
          exact hok1.loc j n hj
    · intro x hx
      show (upd a.B b _ x).chain = c
      by_cases hxb : x = b
      · subst hxb; simp only [upd_same]
      · rw [upd_ne _ _ hxb]
        rcases List.mem_append.1 hx with hx | hx
        · exact h.placed.chain x hx
        · exact absurd (List.mem_singleton.1 hx) hxb
    · intro i x hx
      show (upd a.B b _ x).idx = i
      rcases getElem?_append_singleton hx with hx | ⟨hi, rfl⟩
      · rw [upd_ne _ _ (ne_of_mem_of_not_mem (List.mem_of_getElem? hx) hbm)]; exact h.placed.idx i x hx
      · simp only [upd_same]; rw [hi]; exact h.idx
    · intro i x hx
      show (upd a.B b _ x).off = P.sz (nodesIn (upd a.B b _) (List.take i (a.merged ++ [b])))
      have key : ∀ v, nodesIn (upd a.B b v) (List.take i a.merged) = nodesIn a.B (List.take i a.merged) := fun v =>
        nodesIn_congr fun y hy => by rw [upd_ne _ _ (ne_of_mem_of_not_mem (List.mem_of_mem_take hy) hbm)]
      rcases getElem?_append_singleton hx with hx | ⟨hi, rfl⟩
      · have hi : i ≤ a.merged.length := Nat.le_of_lt (List.getElem?_eq_some_iff.1 hx).1
        rw [upd_ne _ _ (ne_of_mem_of_not_mem (List.mem_of_getElem? hx) hbm), List.take_append_of_le_length hi, key]
        exact h.placed.off i x hx
      · rw [List.take_append_of_le_length (by omega), key]
        simp only [upd_same]
        rw [hi, List.take_length, h.nodes P]; exact h.off
    · show a.off + (a.B b).size = _
      rw [nodesIn_append, sz_append, h.off, hBb, hok.size, nodesIn_cons]; simp
    · show a.idx + 1 = (a.merged ++ [b]).length
      rw [h.idx]; simp
    · show some b = (a.merged ++ [b]).getLast?
      simp

theorem nodup_of_nodesIn {B : Nat → Bundle} : ∀ {bs : List Nat}, (∀ b ∈ bs, (B b).nodes ≠ []) → (nodesIn B bs).Nodup → bs.Nodup
  | [], _, _ => List.nodup_nil
  | b :: t, hne, h => by
    rw [nodesIn_cons, List.nodup_append] at h
    refine List.nodup_cons.2 ⟨fun hb => ?_, nodup_of_nodesIn (fun b' hb' => hne b' (List.mem_cons_of_mem _ hb')) h.2.1⟩
    obtain ⟨n, hn⟩ := List.exists_mem_of_ne_nil _ (hne b (by simp))
    exact h.2.2 n hn n (mem_nodesIn.2 ⟨b, hb, hn⟩) rfl

/-- The whole merging loop. -/
theorem mergeFold_inv (B0 : Nat → Bundle) (L0 : Nat → Option (Nat × Nat)) (c : Nat) (rb : Bool) :
    ∀ (bs : List Nat), (∀ b ∈ bs, BundleOk P B0 L0 b) → (nodesIn B0 bs).Nodup →
      MergeInv P B0 L0 c bs (bs.foldl (mergeStep P rb c) ⟨B0, L0, 0, 0, none, []⟩) ∧
      (bs.foldl (mergeStep P rb c) ⟨B0, L0, 0, 0, none, []⟩).merged.Nodup := by
  intro bs
  induction bs using List.reverseRecOn with
  | nil => intro _ _; exact ⟨mergeInv_init P B0 L0 c, List.nodup_nil⟩
  | append_singleton done b ih =>
    intro hok hnd
    have hbs := nodup_of_nodesIn (fun b hb => (hok b hb).ne) hnd
    have hnd' : (nodesIn B0 done).Nodup := by
      rw [nodesIn_append, List.nodup_append] at hnd; exact hnd.1
    obtain ⟨h1, h2⟩ := ih (fun b hb => hok b (List.mem_append_left _ hb)) hnd'
    rw [List.foldl_append]
    refine mergeStep_inv P rb h1 (fun hb => ?_) (hok b (by simp)) hnd h2
    exact (List.nodup_append.1 hbs).2.2 b hb b (by simp) rfl

theorem slices_perm {α : Type} (o : Order) (s u : List α) : (slices o s u).flatten.Perm (s ++ u) := by
  cases o with
  | SU => simp [slices]
  | S2S1U p =>
    simp only [slices, List.flatten_cons, List.flatten_nil, List.append_nil]
    rw [← List.append_assoc]
    exact (List.perm_append_comm.trans (by rw [List.take_append_drop])).append_right u
  | S1US2 p =>
    simp only [slices, List.flatten_cons, List.flatten_nil, List.append_nil]
    have : (s.take p ++ (u ++ s.drop p)).Perm (s.take p ++ (s.drop p ++ u)) := List.perm_append_comm.append_left _
    rw [← List.append_assoc (s.take p) (s.drop p), List.take_append_drop] at this
    exact this
  | US2S1 p =>
    simp only [slices, List.flatten_cons, List.flatten_nil, List.append_nil]
    refine List.perm_append_comm.trans ?_
    exact (List.perm_append_comm.trans (by rw [List.take_append_drop])).append_right u
  | S2US1 p =>
    simp only [slices, List.flatten_cons, List.flatten_nil, List.append_nil]
    have h1 : (s.drop p ++ (u ++ s.take p)).Perm (s.drop p ++ (s.take p ++ u)) := List.perm_append_comm.append_left _
    refine h1.trans ?_
    rw [← List.append_assoc]
    exact (List.perm_append_comm.trans (by rw [List.take_append_drop])).append_right u

theorem nodesIn_perm (B : Nat → Bundle) {a b : List Nat} (h : a.Perm b) : (nodesIn B a).Perm (nodesIn B b) :=
  h.flatMap_right _

variable {P}

theorem WF0.split {st : State} (h : WF0 P st) {c d : Nat} (hc : c ∈ st.chains) (hd : d ∈ st.chains) (hne : c ≠ d) :
    (st.chains).Perm (d :: c :: (st.chains.erase d).erase c) ∧ (st.chains.erase d).Perm (c :: (st.chains.erase d).erase c) := by
  have hc' : c ∈ st.chains.erase d := (List.mem_erase_of_ne hne).2 hc
  exact ⟨(List.perm_cons_erase hd).trans ((List.perm_cons_erase hc').cons d), List.perm_cons_erase hc'⟩

theorem allNodes_perm (st : State) {l l' : List Nat} (h : l.Perm l') : (l.flatMap (nodesOf st)).Perm (l'.flatMap (nodesOf st)) :=
  h.flatMap_right _

/-- Different chains have no node in common. -/
theorem WF0.disjoint {st : State} (h : WF0 P st) {c d n : Nat} (hc : c ∈ st.chains) (hd : d ∈ st.chains)
    (hn : n ∈ nodesOf st c) (hn' : n ∈ nodesOf st d) : c = d := by
  by_contra hne
  have := (allNodes_perm st (h.split hc hd hne).1).nodup_iff.1 h.once
  simp only [List.flatMap_cons] at this
  exact (List.nodup_append.1 this).2.2 n hn' n (List.mem_append_left _ hn) rfl

theorem WF0.nodup {st : State} (h : WF0 P st) {c : Nat} (hc : c ∈ st.chains) : (nodesOf st c).Nodup :=
  (List.nodup_flatMap.1 h.once).1 c hc

/-- Different places hold different bundles. -/
theorem WF0.bundle_chain {st : State} (h : WF0 P st) {c d b : Nat} (hc : c ∈ st.chains) (hd : d ∈ st.chains)
    (hb : b ∈ (st.C c).bundles) (hb' : b ∈ (st.C d).bundles) : c = d := by
  rw [← (h.placed c hc).chain b hb, (h.placed d hd).chain b hb']

theorem mem_allNodes {st : State} {n : Nat} : n ∈ allNodes st ↔ ∃ c ∈ st.chains, n ∈ nodesOf st c := by
  simp [allNodes]

/-- The merged list of bundles, before rebundling. -/
def mergedBundles (o : Order) (st : State) (s u : Nat) : List Nat := (slices o (st.C s).bundles (st.C u).bundles).flatten

/-- One merge keeps the state well-formed: it only concatenates the slices of the two chains. -/
theorem mergeNodes_spec {st : State} (h : WF P st) {s u : Nat} (hs : s ∈ st.chains) (hu : u ∈ st.chains) (hne : s ≠ u)
    (rb : Bool) (o : Order) :
    WF P (mergeNodes P rb o st s u) ∧ (allNodes (mergeNodes P rb o st s u)).Perm (allNodes st) ∧
    nodesOf (mergeNodes P rb o st s u) s = nodesIn st.B (mergedBundles o st s u) ∧
    (∀ c ∈ st.chains, c ≠ s → c ≠ u → nodesOf (mergeNodes P rb o st s u) c = nodesOf st c) := by
  have hperm : (mergedBundles o st s u).Perm ((st.C s).bundles ++ (st.C u).bundles) := slices_perm o _ _
  have hmem : ∀ b, b ∈ mergedBundles o st s u ↔ b ∈ (st.C s).bundles ∨ b ∈ (st.C u).bundles := fun b => by
    rw [hperm.mem_iff, List.mem_append]
  have hnp : (nodesIn st.B (mergedBundles o st s u)).Perm (nodesOf st s ++ nodesOf st u) := by
    have := nodesIn_perm st.B hperm
    rwa [nodesIn_append] at this
  have hok : ∀ b ∈ mergedBundles o st s u, BundleOk P st.B st.L b := fun b hb => by
    rcases (hmem b).1 hb with hb | hb
    exacts [h.bundle s hs b hb, h.bundle u hu b hb]
  have hall := allNodes_perm st (h.split hs hu hne).1
  have hnd : (nodesIn st.B (mergedBundles o st s u)).Nodup := by
    have := hall.nodup_iff.1 h.once
    simp only [List.flatMap_cons] at this
    rw [← List.append_assoc] at this
    exact (hnp.trans List.perm_append_comm).nodup_iff.2 (List.nodup_append.1 this).1
  obtain ⟨inv, mnd⟩ := mergeFold_inv P st.B st.L s rb (mergedBundles o st s u) hok hnd
  generalize ha : (mergedBundles o st s u).foldl (mergeStep P rb s) ⟨st.B, st.L, 0, 0, none, []⟩ = a at inv mnd
  have hst : mergeNodes P rb o st s u = { st with
      B := a.B
      L := a.L
      chains := st.chains.erase u
      C := upd st.C s { st.C s with
        bundles := a.merged
        size := (st.C s).size + (st.C u).size
        freq := (st.C s).freq + (st.C u).freq
        fnIdx := if (st.C s).fnIdx = (st.C u).fnIdx then (st.C s).fnIdx else none } } := by
    rw [← ha]; rfl
  have hns : nodesOf (mergeNodes P rb o st s u) s = nodesIn st.B (mergedBundles o st s u) := by
    rw [hst, nodesOf]; simp only [upd_same]; exact inv.nodes P
  have hBx : ∀ c ∈ st.chains, c ≠ s → c ≠ u → ∀ b ∈ (st.C c).bundles, a.B b = st.B b := by
    intro c hc h1 h2 b hb
    refine inv.frame b fun hb' => ?_
    rcases (hmem b).1 hb' with hb' | hb'
    exacts [h1 (h.bundle_chain hc hs hb hb'), h2 (h.bundle_chain hc hu hb hb')]
  have hLx : ∀ c ∈ st.chains, c ≠ s → c ≠ u → ∀ n ∈ nodesOf st c, a.L n = st.L n := by
    intro c hc h1 h2 n hn
    refine inv.frameL n fun hn' => ?_
    rcases List.mem_append.1 (hnp.mem_iff.1 hn') with hn' | hn'
    exacts [h1 (h.disjoint hc hs hn hn'), h2 (h.disjoint hc hu hn hn')]
  have hno : ∀ c ∈ st.chains, c ≠ s → c ≠ u → nodesOf (mergeNodes P rb o st s u) c = nodesOf st c := by
    intro c hc h1 h2
    rw [hst, nodesOf]; simp only [upd_ne _ _ h1]
    exact nodesIn_congr fun b hb => by rw [hBx c hc h1 h2 b hb]
  have hcases : ∀ c ∈ st.chains.erase u, c ∈ st.chains ∧ c ≠ u := fun c hc => by
    rw [h.live.mem_erase_iff] at hc; exact ⟨hc.2, hc.1⟩
  have hperm' : (allNodes (mergeNodes P rb o st s u)).Perm (allNodes st) := by
    have h1 : (allNodes (mergeNodes P rb o st s u)).Perm
        ((s :: (st.chains.erase u).erase s).flatMap (nodesOf (mergeNodes P rb o st s u))) := by
      refine List.Perm.trans ?_ (allNodes_perm _ (h.split hs hu hne).2)
      rw [allNodes, hst]
    refine h1.trans (List.Perm.trans ?_ hall.symm)
    simp only [List.flatMap_cons]
    rw [hns, ← List.append_assoc]
    refine (hnp.trans List.perm_append_comm).append ?_
    rw [List.flatMap_congr fun c hc => ?_]
    have hc' := (h.live.erase u).mem_erase_iff.1 hc
    obtain ⟨q1, q2⟩ := hcases c hc'.2
    exact hno c q1 hc'.1 q2
  refine ⟨⟨⟨?_, ?_, ?_, ?_, ?_, ?_, ?_, ?_, ?_⟩, ?_⟩, hperm', hns, hno⟩
  · rw [hst]; exact h.live.erase u
  · exact hperm'.nodup_iff.2 h.once
  · intro c hc b hb
    rw [hst] at hc hb ⊢
    obtain ⟨q1, q2⟩ := hcases c hc
    by_cases hcs : c = s
    · subst hcs; simp only [upd_same] at hb; exact inv.ok b hb
    · simp only [upd_ne _ _ hcs] at hb
      have hB := hBx c q1 hcs q2 b hb
      have hk := h.bundle c q1 b hb
      refine ⟨?_, ?_, ?_, ?_⟩
      · show (a.B b).nodes ≠ []; rw [hB]; exact hk.ne
      · show (a.B b).size = P.sz (a.B b).nodes; rw [hB]; exact hk.size
      · show (a.B b).freq = P.fr (a.B b).nodes; rw [hB]; exact hk.freq
      · intro j n hj
        show a.L n = some (b, P.sz (List.take j (a.B b).nodes))
        replace hj : (a.B b).nodes[j]? = some n := hj
        rw [hB] at hj ⊢
        rw [hLx c q1 hcs q2 n (mem_nodesIn.2 ⟨b, hb, List.mem_of_getElem? hj⟩)]
        exact hk.loc j n hj
  · intro c hc
    rw [hst] at hc ⊢
    obtain ⟨q1, q2⟩ := hcases c hc
    show Placed P a.B c (upd st.C s _ c).bundles
    by_cases hcs : c = s
    · subst hcs; simp only [upd_same]; exact inv.placed
    · rw [upd_ne _ _ hcs]
      have hk := h.placed c q1
      have hB := hBx c q1 hcs q2
      refine ⟨?_, ?_, ?_⟩
      · intro b hb; rw [hB b hb]; exact hk.chain b hb
      · intro i b hb; rw [hB b (List.mem_of_getElem? hb)]; exact hk.idx i b hb
      · intro i b hb; rw [hB b (List.mem_of_getElem? hb), hk.off i b hb]
        rw [nodesIn_congr (B' := a.B) fun b' hb' => by rw [hB b' (List.mem_of_mem_take hb')]]
  · intro c hc
    have hc0 := hc
    rw [hst] at hc
    obtain ⟨q1, q2⟩ := hcases c hc
    by_cases hcs : c = s
    · subst hcs
      rw [hns, sz_perm P hnp, sz_append, hst]; simp only [upd_same]
      rw [h.size c hs, h.size u hu]
    · rw [hno c q1 hcs q2, hst]; simp only [upd_ne _ _ hcs]; exact h.size c q1
  · intro c hc
    rw [hst] at hc
    obtain ⟨q1, q2⟩ := hcases c hc
    by_cases hcs : c = s
    · subst hcs
      rw [hns, fr_perm P hnp, fr_append, hst]; simp only [upd_same]
      rw [h.freq c hs, h.freq u hu]
    · rw [hno c q1 hcs q2, hst]; simp only [upd_ne _ _ hcs]; exact h.freq c q1
  · intro c hc f hf n hn
    rw [hst] at hc hf
    obtain ⟨q1, q2⟩ := hcases c hc
    by_cases hcs : c = s
    · subst hcs
      rw [hns] at hn
      simp only [upd_same] at hf
      split at hf
      · rename_i he
        rcases List.mem_append.1 (hnp.mem_iff.1 hn) with hn | hn
        · exact h.fnIdx c hs f hf n hn
        · exact h.fnIdx u hu f (he ▸ hf) n hn
      · cases hf
    · rw [hno c q1 hcs q2] at hn
      simp only [upd_ne _ _ hcs] at hf
      exact h.fnIdx c q1 f hf n hn
  · intro c hc b hb
    rw [hst] at hc hb ⊢
    obtain ⟨q1, q2⟩ := hcases c hc
    show b < st.nb
    by_cases hcs : c = s
    · subst hcs; simp only [upd_same] at hb
      rcases (hmem b).1 (inv.sub P b hb) with hb | hb
      exacts [h.fresh c hs b hb, h.fresh u hu b hb]
    · simp only [upd_ne _ _ hcs] at hb; exact h.fresh c q1 b hb
  · intro n b o' hl
    rw [hperm'.mem_iff]
    by_cases hn : n ∈ nodesIn st.B (mergedBundles o st s u)
    · rcases List.mem_append.1 (hnp.mem_iff.1 hn) with hn | hn
      exacts [mem_allNodes.2 ⟨s, hs, hn⟩, mem_allNodes.2 ⟨u, hu, hn⟩]
    · rw [hst] at hl
      replace hl : a.L n = some (b, o') := hl
      rw [inv.frameL n hn] at hl
      exact h.loc n b o' hl
  · intro c hc
    rw [hst] at hc ⊢
    obtain ⟨q1, q2⟩ := hcases c hc
    show (upd st.C s _ c).bundles ≠ []
    by_cases hcs : c = s
    · subst hcs; simp only [upd_same]
      intro he
      have := inv.nodes P
      rw [he, nodesIn_nil] at this
      obtain ⟨b, hb⟩ := List.exists_mem_of_ne_nil _ (h.ne c hs)
      obtain ⟨n, hn⟩ := List.exists_mem_of_ne_nil _ (h.bundle c hs b hb).ne
      have : n ∈ ([] : List Nat) := by
        rw [this]; exact mem_nodesIn.2 ⟨b, (hmem b).2 (.inl hb), hn⟩
      cases this
    · rw [upd_ne _ _ hcs]; exact h.ne c q1

/-! ### The initial chains -/

theorem placeNodes_spec (b : Nat) : ∀ (ns : List Nat) (off : Nat) (L : Nat → Option (Nat × Nat)), ns.Nodup →
    (∀ n ∈ ns, L n = none) → ∃ L', placeNodes P b ns off L = some L' ∧
      (∀ j n, ns[j]? = some n → L' n = some (b, off + P.sz (ns.take j))) ∧ (∀ n, n ∉ ns → L' n = L n) := by
  intro ns
  induction ns with
  | nil => intro off L _ _; exact ⟨L, rfl, by simp, fun _ _ => rfl⟩
  | cons m t ih =>
    intro off L hnd hL
    obtain ⟨h1, h2⟩ := List.nodup_cons.1 hnd
    obtain ⟨L', e, p1, p2⟩ := ih (off + P.size m) (upd L m (some (b, off))) h2 (fun n hn => by
      rw [upd_ne _ _ (ne_of_mem_of_not_mem hn h1)]; exact hL n (List.mem_cons_of_mem _ hn))
    refine ⟨L', ?_, ?_, ?_⟩
    · rw [placeNodes, hL m (by simp)]; exact e
    · intro j n hj
      cases j with
      | zero =>
        simp only [List.getElem?_cons_zero, Option.some.injEq] at hj
        subst hj
        rw [p2 m h1, upd_same]; simp
      | succ j =>
        rw [List.getElem?_cons_succ] at hj
        rw [p1 j n hj, List.take_succ_cons, sz_cons]
        congr 2; omega
    · intro n hn
      simp only [List.mem_cons, not_or] at hn
      rw [p2 n hn.2, upd_ne _ _ hn.1]

/-- Adding one bundle at the end of a chain. -/
theorem addBundle_spec {st : State} (h : WF0 P st) {c : Nat} (hc : c ∈ st.chains) {g : List Nat} (hg : g ≠ [])
    (hnd : g.Nodup) (hdis : ∀ n ∈ g, n ∉ allNodes st) (hf : ∀ f, (st.C c).fnIdx = some f → ∀ n ∈ g, P.fn n = f) :
    ∃ L, placeNodes P st.nb g 0 st.L = some L ∧
      let st' : State := { st with
          L := L, nb := st.nb + 1
          B := upd st.B st.nb ⟨g, c, (st.C c).bundles.length, (st.C c).size, P.sz g, P.fr g, []⟩
          C := upd st.C c { st.C c with bundles := (st.C c).bundles ++ [st.nb], size := (st.C c).size + P.sz g,
                                        freq := (st.C c).freq + P.fr g } }
      WF0 P st' ∧ nodesOf st' c = nodesOf st c ++ g ∧ (∀ d ∈ st.chains, d ≠ c → nodesOf st' d = nodesOf st d) ∧
      (allNodes st').Perm (allNodes st ++ g) := by
  have hnone : ∀ n ∈ g, st.L n = none := fun n hn => by
    cases hl : st.L n with
    | none => rfl
    | some p => exact absurd (h.loc n p.1 p.2 hl) (hdis n hn)
  obtain ⟨L, e, p1, p2⟩ := placeNodes_spec (P := P) st.nb g 0 st.L hnd hnone
  refine ⟨L, e, ?_⟩
  intro st'
  have hnew : ∀ d ∈ st.chains, ∀ b ∈ (st.C d).bundles, b ≠ st.nb := fun d hd b hb =>
    Nat.ne_of_lt (h.fresh d hd b hb)
  have hB : ∀ d ∈ st.chains, ∀ b ∈ (st.C d).bundles, st'.B b = st.B b := fun d hd b hb => upd_ne _ _ (hnew d hd b hb)
  have hL : ∀ d ∈ st.chains, ∀ n ∈ nodesOf st d, L n = st.L n := fun d hd n hn =>
    p2 n fun hn' => hdis n hn' (mem_allNodes.2 ⟨d, hd, hn⟩)
  have hCc : (st'.C c).bundles = (st.C c).bundles ++ [st.nb] := by
    show (upd st.C c _ c).bundles = _; rw [upd_same]
  have hCd : ∀ d, d ≠ c → st'.C d = st.C d := fun d hd => upd_ne _ _ hd
  have hBn : st'.B st.nb = ⟨g, c, (st.C c).bundles.length, (st.C c).size, P.sz g, P.fr g, []⟩ := upd_same _ _ _
  have hnc : nodesOf st' c = nodesOf st c ++ g := by
    rw [nodesOf, hCc, nodesIn_append, nodesIn_cons, hBn, nodesIn_congr fun b hb => by rw [hB c hc b hb]]
    simp [nodesOf]
  have hnd' : ∀ d ∈ st.chains, d ≠ c → nodesOf st' d = nodesOf st d := fun d hd hdc => by
    rw [nodesOf, hCd d hdc]
    exact nodesIn_congr fun b hb => by rw [hB d hd b hb]
  have hperm : (allNodes st').Perm (allNodes st ++ g) := by
    have q : st.chains.Perm (c :: st.chains.erase c) := List.perm_cons_erase hc
    refine (allNodes_perm st' (show st'.chains.Perm _ from q)).trans ?_
    rw [List.flatMap_cons, hnc, List.flatMap_congr fun d hd => hnd' d (List.mem_of_mem_erase hd)
      (h.live.mem_erase_iff.1 hd).1]
    refine List.Perm.trans ?_ ((allNodes_perm st q).symm.append_right g)
    rw [List.flatMap_cons, List.append_assoc, List.append_assoc]
    exact List.perm_append_comm.append_left _
  refine ⟨⟨h.live, ?_, ?_, ?_, ?_, ?_, ?_, ?_, ?_⟩, hnc, hnd', hperm⟩
  · refine hperm.nodup_iff.2 (List.nodup_append.2 ⟨h.once, hnd, ?_⟩)
    intro a ha b hb hab
    exact hdis b hb (hab ▸ ha)
  · intro d hd b hb
    have old : b ∈ (st.C d).bundles → BundleOk P st'.B st'.L b := by
      intro hb
      have hk := h.bundle d hd b hb
      have hBb := hB d hd b hb
      refine ⟨?_, ?_, ?_, ?_⟩
      · rw [hBb]; exact hk.ne
      · rw [hBb]; exact hk.size
      · rw [hBb]; exact hk.freq
      · intro j n hj
        rw [hBb] at hj ⊢
        show L n = _
        rw [hL d hd n (mem_nodesIn.2 ⟨b, hb, List.mem_of_getElem? hj⟩)]
        exact hk.loc j n hj
    by_cases hdc : d = c
    · subst hdc
      rw [hCc] at hb
      rcases List.mem_append.1 hb with hb | hb
      · exact old hb
      · rw [List.mem_singleton] at hb
        subst hb
        refine ⟨?_, ?_, ?_, ?_⟩
        · rw [hBn]; exact hg
        · rw [hBn]
        · rw [hBn]
        · intro j n hj
          rw [hBn] at hj ⊢
          have := p1 j n hj
          rwa [Nat.zero_add] at this
    · rw [hCd d hdc] at hb; exact old hb
  · intro d hd
    by_cases hdc : d = c
    · subst hdc
      rw [hCc]
      have hk := h.placed d hd
      have key : ∀ i, nodesIn st'.B ((st.C d).bundles.take i) = nodesIn st.B ((st.C d).bundles.take i) := fun i =>
        nodesIn_congr fun b hb => by rw [hB d hd b (List.mem_of_mem_take hb)]
      refine ⟨?_, ?_, ?_⟩
      · intro b hb
        rcases List.mem_append.1 hb with hb | hb
        · rw [hB d hd b hb]; exact hk.chain b hb
        · rw [List.mem_singleton] at hb; subst hb; rw [hBn]
      · intro i b hb
        rcases getElem?_append_singleton hb with hb | ⟨hi, rfl⟩
        · rw [hB d hd b (List.mem_of_getElem? hb)]; exact hk.idx i b hb
        · rw [hBn]; exact hi.symm
      · intro i b hb
        rcases getElem?_append_singleton hb with hb | ⟨hi, rfl⟩
        · rw [hB d hd b (List.mem_of_getElem? hb),
            List.take_append_of_le_length (Nat.le_of_lt (List.getElem?_eq_some_iff.1 hb).1), key]
          exact hk.off i b hb
        · rw [hBn, hi, List.take_append_of_le_length (Nat.le_refl _), key, List.take_length]
          exact h.size d hd
    · rw [hCd d hdc]
      have hk := h.placed d hd
      refine ⟨?_, ?_, ?_⟩
      · intro b hb; rw [hB d hd b hb]; exact hk.chain b hb
      · intro i b hb; rw [hB d hd b (List.mem_of_getElem? hb)]; exact hk.idx i b hb
      · intro i b hb
        rw [hB d hd b (List.mem_of_getElem? hb), nodesIn_congr (B := st.B) fun b' hb' => by
          rw [hB d hd b' (List.mem_of_mem_take hb')]]
        exact hk.off i b hb
  · intro d hd
    by_cases hdc : d = c
    · subst hdc
      rw [hnc, sz_append, ← h.size d hd]
      show (upd st.C d _ d).size = _; rw [upd_same]
    · rw [hnd' d hd hdc, hCd d hdc]; exact h.size d hd
  · intro d hd
    by_cases hdc : d = c
    · subst hdc
      rw [hnc, fr_append, ← h.freq d hd]
      show (upd st.C d _ d).freq = _; rw [upd_same]
    · rw [hnd' d hd hdc, hCd d hdc]; exact h.freq d hd
  · intro d hd f hfd n hn
    by_cases hdc : d = c
    · subst hdc
      have hfd' : (st.C d).fnIdx = some f := by
        have : (st'.C d).fnIdx = (st.C d).fnIdx := by show (upd st.C d _ d).fnIdx = _; rw [upd_same]
        rwa [this] at hfd
      rw [hnc] at hn
      rcases List.mem_append.1 hn with hn | hn
      · exact h.fnIdx d hd f hfd' n hn
      · exact hf f hfd' n hn
    · rw [hnd' d hd hdc] at hn; rw [hCd d hdc] at hfd; exact h.fnIdx d hd f hfd n hn
  · intro d hd b hb
    show b < st.nb + 1
    by_cases hdc : d = c
    · subst hdc
      rw [hCc] at hb
      rcases List.mem_append.1 hb with hb | hb
      · exact Nat.lt_succ_of_lt (h.fresh d hd b hb)
      · rw [List.mem_singleton] at hb; omega
    · rw [hCd d hdc] at hb; exact Nat.lt_succ_of_lt (h.fresh d hd b hb)
  · intro n b o hl
    replace hl : L n = some (b, o) := hl
    rw [hperm.mem_iff, List.mem_append]
    by_cases hn : n ∈ g
    · exact .inr hn
    · rw [p2 n hn] at hl; exact .inl (h.loc n b o hl)

theorem addBundles_spec (c : Nat) : ∀ (gs : List (List Nat)) (st : State), WF0 P st → c ∈ st.chains →
    (∀ g ∈ gs, g ≠ []) → gs.flatten.Nodup → (∀ n ∈ gs.flatten, n ∉ allNodes st) →
    (∀ f, (st.C c).fnIdx = some f → ∀ n ∈ gs.flatten, P.fn n = f) →
    ∃ st', addBundles P c gs (st.C c).bundles.length (st.C c).size st = some st' ∧ WF0 P st' ∧ st'.chains = st.chains ∧
      nodesOf st' c = nodesOf st c ++ gs.flatten ∧ (∀ d ∈ st.chains, d ≠ c → nodesOf st' d = nodesOf st d) ∧
      (∀ d, d ≠ c → st'.C d = st.C d) ∧ (allNodes st').Perm (allNodes st ++ gs.flatten) ∧
      (∀ d, (st.C d).interOut = [] → (st'.C d).interOut = []) ∧ (∀ d, (st.C d).interIn = [] → (st'.C d).interIn = []) ∧
      (∀ b, (st.B b).outs = [] → (st'.B b).outs = []) := by
  intro gs
  induction gs with
  | nil =>
    intro st h hc _ _ _ _
    exact ⟨st, rfl, h, rfl, by simp, fun _ _ _ => rfl, fun _ _ => rfl, by simp, fun _ h => h, fun _ h => h, fun _ h => h⟩
  | cons g gs ih =>
    intro st h hc hne hnd hdis hf
    rw [List.flatten_cons] at hnd hdis hf
    obtain ⟨n1, n2, n3⟩ := List.nodup_append.1 hnd
    obtain ⟨L, e, h', q1, q2, q3⟩ := addBundle_spec h hc (hne g (by simp)) n1
      (fun n hn => hdis n (List.mem_append_left _ hn)) (fun f hff n hn => hf f hff n (List.mem_append_left _ hn))
    generalize hst1 : ({ st with
          L := L, nb := st.nb + 1
          B := upd st.B st.nb ⟨g, c, (st.C c).bundles.length, (st.C c).size, P.sz g, P.fr g, []⟩
          C := upd st.C c { st.C c with bundles := (st.C c).bundles ++ [st.nb], size := (st.C c).size + P.sz g,
                                        freq := (st.C c).freq + P.fr g } } : State) = st1 at h' q1 q2 q3
    have hch : st1.chains = st.chains := by rw [← hst1]
    have hCc : st1.C c = { st.C c with bundles := (st.C c).bundles ++ [st.nb], size := (st.C c).size + P.sz g,
                                        freq := (st.C c).freq + P.fr g } := by rw [← hst1]; exact upd_same _ _ _
    have hCd : ∀ d, d ≠ c → st1.C d = st.C d := fun d hd => by rw [← hst1]; exact upd_ne _ _ hd
    have hBo : ∀ b, (st.B b).outs = [] → (st1.B b).outs = [] := fun b hb => by
      rw [← hst1]
      show (upd st.B st.nb _ b).outs = []
      by_cases hbn : b = st.nb
      · subst hbn; rw [upd_same]
      · rw [upd_ne _ _ hbn]; exact hb
    obtain ⟨st', e', w, r1, r2, r3, r4, r5, r6, r7, r8⟩ := ih st1 h' (hch ▸ hc) (fun g' hg' => hne g' (by simp [hg'])) n2
      (fun n hn hn' => by
        rcases List.mem_append.1 (q3.mem_iff.1 hn') with hn' | hn'
        · exact hdis n (List.mem_append_right _ hn) hn'
        · exact n3 n hn' n hn rfl)
      (fun f hff n hn => hf f (by rw [hCc] at hff; exact hff) n (List.mem_append_right _ hn))
    refine ⟨st', ?_, w, r1.trans hch, ?_, ?_, ?_, ?_, ?_, ?_, ?_⟩
    · rw [addBundles, e]
      simp only
      rw [hst1]
      rw [hCc] at e'
      simpa using e'
    · rw [r2, q1, List.flatten_cons, List.append_assoc]
    · intro d hd hdc
      rw [r3 d (hch ▸ hd) hdc, q2 d hd hdc]
    · intro d hdc
      rw [r4 d hdc, hCd d hdc]
    · refine r5.trans ?_
      rw [List.flatten_cons, ← List.append_assoc]
      exact q3.append_right _
    · intro d hd
      refine r6 d ?_
      by_cases hdc : d = c
      · subst hdc; rw [hCc]; exact hd
      · rw [hCd d hdc]; exact hd
    · intro d hd
      refine r7 d ?_
      by_cases hdc : d = c
      · subst hdc; rw [hCc]; exact hd
      · rw [hCd d hdc]; exact hd
    · intro b hb; exact r8 b (hBo b hb)

/-- The bundles that a row of nodes is divided into. -/
theorem groups_flatten (r : List Nat × Bool) :
    (if r.2 then r.1.map ([·]) else [r.1]).flatten = r.1 := by
  cases r.2 with
  | true =>
    simp only [if_true]
    induction r.1 with
    | nil => rfl
    | cons a t ih =>
      simp only [List.map_cons, List.flatten_cons, List.singleton_append]
      exact congrArg _ ih
  | false => simp

/-- Facts about a state that only holds initial chains made from `rs`. -/
structure InitOk (rs : List (List Nat × Bool)) (st : State) : Prop where
  wf : WF P st
  chains : st.chains = rs.filterMap (·.1.head?)
  rows : ∀ r ∈ rs, ∀ n, r.1.head? = some n → nodesOf st n = r.1
  all : (allNodes st).Perm (rs.flatMap Prod.fst)
  noOut : ∀ c, (st.C c).interOut = []
  noIn : ∀ c, (st.C c).interIn = []
  noEdges : ∀ b, (st.B b).outs = []

theorem initOk_empty : InitOk (P := P) [] {} := by
  refine ⟨⟨⟨List.nodup_nil, List.nodup_nil, ?_, ?_, ?_, ?_, ?_, ?_, ?_⟩, ?_⟩, rfl, ?_, List.Perm.refl _, ?_, ?_, ?_⟩ <;> simp

theorem addChain_spec {rs : List (List Nat × Bool)} {st : State} (h : InitOk (P := P) rs st) (r : List Nat × Bool)
    (hnd : ((rs ++ [r]).flatMap Prod.fst).Nodup) (hfn : ∀ n ∈ r.1, ∀ n' ∈ r.1, P.fn n = P.fn n') :
    ∃ st', addChain P st r = some st' ∧ InitOk (P := P) (rs ++ [r]) st' := by
  rw [List.flatMap_append] at hnd
  obtain ⟨d1, d2, d3⟩ := List.nodup_append.1 hnd
  have d2 : r.1.Nodup := by simpa using d2
  have hdis : ∀ n ∈ r.1, n ∉ allNodes st := fun n hn hn' =>
    d3 n (h.all.mem_iff.1 hn') n (by simpa using hn) rfl
  obtain ⟨l, each⟩ := r
  cases l with
  | nil =>
    refine ⟨st, rfl, h.wf, ?_, ?_, ?_, h.noOut, h.noIn, h.noEdges⟩
    · rw [List.filterMap_append, h.chains]; simp
    · intro r hr n hn
      rcases List.mem_append.1 hr with hr | hr
      · exact h.rows r hr n hn
      · rw [List.mem_singleton] at hr; subst hr; simp at hn
    · rw [List.flatMap_append]; simpa using h.all
  | cons n t =>
    have hn : n ∉ st.chains := fun hc => by
      have h1 : n ∈ rs.filterMap (·.1.head?) := h.chains ▸ hc
      obtain ⟨r, hr, hr2⟩ := List.mem_filterMap.1 h1
      have h2 := h.rows r hr n hr2
      exact hdis n (by simp) (mem_allNodes.2 ⟨n, hc, by rw [h2]; exact List.mem_of_mem_head? hr2⟩)
    generalize hst0 : ({ st with chains := st.chains ++ [n], C := upd st.C n { fnIdx := some (P.fn n) } } : State) = st0
    have hC0 : st0.C n = { fnIdx := some (P.fn n) } := by rw [← hst0]; exact upd_same _ _ _
    have hCd : ∀ d, d ≠ n → st0.C d = st.C d := fun d hd => by rw [← hst0]; exact upd_ne _ _ hd
    have hch : st0.chains = st.chains ++ [n] := by rw [← hst0]
    have hB0 : st0.B = st.B := by rw [← hst0]
    have hL0 : st0.L = st.L := by rw [← hst0]
    have hnb : st0.nb = st.nb := by rw [← hst0]
    have hno : ∀ d ∈ st.chains, nodesOf st0 d = nodesOf st d := fun d hd => by
      rw [nodesOf, nodesOf, hCd d (ne_of_mem_of_not_mem hd hn), hB0]
    have hnn : nodesOf st0 n = [] := by rw [nodesOf, hC0]; rfl
    have hal : allNodes st0 = allNodes st := by
      rw [allNodes, hch, List.flatMap_append, allNodes, List.flatMap_congr hno]
      simp [hnn]
    have hw : WF0 P st0 := by
      have hmem : ∀ c ∈ st0.chains, c ∈ st.chains ∨ c = n := fun c hc => by
        rw [hch] at hc; simpa using hc
      refine ⟨?_, ?_, ?_, ?_, ?_, ?_, ?_, ?_, ?_⟩
      · rw [hch, List.nodup_append]
        refine ⟨h.wf.live, by simp, ?_⟩
        intro a ha b hb hab
        rw [List.mem_singleton] at hb
        exact hn (hb ▸ hab ▸ ha)
      · rw [hal]; exact h.wf.once
      · intro c hc b hb
        rcases hmem c hc with hc | rfl
        · rw [hCd c (ne_of_mem_of_not_mem hc hn)] at hb
          rw [hB0, hL0]; exact h.wf.bundle c hc b hb
        · rw [hC0] at hb; cases hb
      · intro c hc
        rcases hmem c hc with hc | rfl
        · rw [hCd c (ne_of_mem_of_not_mem hc hn), hB0]; exact h.wf.placed c hc
        · rw [hC0]; exact ⟨by simp, by simp, by simp⟩
      · intro c hc
        rcases hmem c hc with hc | rfl
        · rw [hno c hc, hCd c (ne_of_mem_of_not_mem hc hn)]; exact h.wf.size c hc
        · rw [hnn, hC0]; rfl
      · intro c hc
        rcases hmem c hc with hc | rfl
        · rw [hno c hc, hCd c (ne_of_mem_of_not_mem hc hn)]; exact h.wf.freq c hc
        · rw [hnn, hC0]; rfl
      · intro c hc f hf m hm
        rcases hmem c hc with hc | rfl
        · rw [hno c hc] at hm; rw [hCd c (ne_of_mem_of_not_mem hc hn)] at hf; exact h.wf.fnIdx c hc f hf m hm
        · rw [hnn] at hm; cases hm
      · intro c hc b hb
        rcases hmem c hc with hc | rfl
        · rw [hCd c (ne_of_mem_of_not_mem hc hn)] at hb; rw [hnb]; exact h.wf.fresh c hc b hb
        · rw [hC0] at hb; cases hb
      · intro m b o hl; rw [hal]; rw [hL0] at hl; exact h.wf.loc m b o hl
    have hg : (if each then (n :: t).map ([·]) else [n :: t]).flatten = n :: t := groups_flatten (n :: t, each)
    obtain ⟨st', e, w, r1, r2, r3, r4, r5, r6, r7, r8⟩ := addBundles_spec (P := P) n
      (if each then (n :: t).map ([·]) else [n :: t]) st0 hw (by rw [hch]; simp)
      (by
        intro g hg
        cases each with
        | true =>
          simp only [if_true, List.mem_map] at hg
          obtain ⟨x, _, rfl⟩ := hg
          simp
        | false => simp at hg; simp [hg])
      (by rw [hg]; exact d2) (by rw [hg, hal]; exact hdis)
      (by
        rw [hg, hC0]
        intro f hf m hm
        simp only [Option.some.injEq] at hf
        rw [← hf]; exact hfn m hm n (by simp))
    rw [hg] at r2 r5
    refine ⟨st', ?_, ⟨w, ?_⟩, ?_, ?_, ?_, ?_, ?_, ?_⟩
    · rw [addChain]
      simp only [if_neg hn]
      rw [hst0]
      rw [hC0] at e
      simpa using e
    · intro c hc
      rw [r1, hch, List.mem_append, List.mem_singleton] at hc
      rcases hc with hc | rfl
      · have hcn := ne_of_mem_of_not_mem hc hn
        rw [r4 c hcn, hCd c hcn]; exact h.wf.ne c hc
      · intro he
        rw [nodesOf, he] at r2
        simp [hnn] at r2
    · rw [r1, hch, List.filterMap_append, h.chains]; rfl
    · intro r hr m hm
      rcases List.mem_append.1 hr with hr | hr
      · have hmc : m ∈ st.chains := by
          rw [h.chains]; exact List.mem_filterMap.2 ⟨r, hr, hm⟩
        rw [r3 m (by rw [hch]; simp [hmc]) (ne_of_mem_of_not_mem hmc hn), hno m hmc]
        exact h.rows r hr m hm
      · rw [List.mem_singleton] at hr; subst hr
        simp only [List.head?_cons, Option.some.injEq] at hm
        subst hm
        rw [r2, hnn]; rfl
    · refine r5.trans ?_
      rw [hal, List.flatMap_append]
      simpa using h.all.append_right (n :: t)
    · intro c
      refine r6 c ?_
      by_cases hcn : c = n
      · subst hcn; rw [hC0]
      · rw [hCd c hcn]; exact h.noOut c
    · intro c
      refine r7 c ?_
      by_cases hcn : c = n
      · subst hcn; rw [hC0]
      · rw [hCd c hcn]; exact h.noIn c
    · intro b; refine r8 b ?_; rw [hB0]; exact h.noEdges b

theorem foldlM_snoc {α β : Type} (f : β → α → Option β) (l : List α) (x : α) (b : β) :
    (l ++ [x]).foldlM f b = (l.foldlM f b).bind fun s => f s x := by
  rw [List.foldlM_append]
  cases l.foldlM f b with
  | none => rfl
  | some s => show ([x].foldlM f s) = f s x; simp [List.foldlM]; 

/-- The initial chains are built without failing a check, one chain per row of nodes, for disjoint rows. -/
theorem addChains_spec : ∀ (rs : List (List Nat × Bool)), (rs.flatMap Prod.fst).Nodup →
    (∀ r ∈ rs, ∀ n ∈ r.1, ∀ n' ∈ r.1, P.fn n = P.fn n') →
    ∃ st, addChains P rs = some st ∧ InitOk (P := P) rs st := by
  intro rs
  induction rs using List.reverseRecOn with
  | nil => intro _ _; exact ⟨{}, rfl, initOk_empty⟩
  | append_singleton rs r ih =>
    intro hnd hfn
    obtain ⟨st, e, h⟩ := ih (by rw [List.flatMap_append] at hnd; exact (List.nodup_append.1 hnd).1)
      (fun r hr => hfn r (List.mem_append_left _ hr))
    obtain ⟨st', e', h'⟩ := addChain_spec h r hnd (hfn r (by simp))
    refine ⟨st', ?_, h'⟩
    rw [addChains, foldlM_snoc]
    rw [addChains] at e
    rw [e]; exact e'

end Verif.Chain
