import Verif.InlineHandlerSec

/-! # C63: from the bytes of `.debug_info` to inline stacks -/
namespace Verif.InlineHandler
open Verif Verif.DwarfInfo Verif.Inline Verif.ByteReader
open Verif.LineMap (LMap Tab LSeq Rep Reports Described fileOf inside Disj Found LineId)
open Verif.DwarfLine (Ev Unit4 initialLength)

/-! ## Offsets -/

theorem fns_offsets {cx : Ctx} {abbrevs : List Abbrev} {wants : Nat → Bool} (t : Forest) : ∀ (off : Nat) (bs : List Nat)
    (encl : Option Nat), t.Enc cx abbrevs wants off bs →
    ((fns abbrevs encl t).map FnEntry.off).Pairwise (· < ·) ∧
      ∀ x ∈ fns abbrevs encl t, off ≤ x.off ∧ x.off < off + bs.length := by
  induction t with
  | nil => intro off bs encl h; simp [fns]
  | cons o code vals kids next ihk ihn =>
    intro off bs encl h
    obtain ⟨a, c, b, k, z, n, rfl, h0, ha, hc, hb, hk, hn, rfl⟩ := h
    have hcpos := isU_pos hc
    have hclen : c.length ≠ 0 := by simpa using hcpos
    have hkids : ∀ encl, ((fns abbrevs encl kids).map FnEntry.off).Pairwise (· < ·) ∧
        ∀ x ∈ fns abbrevs encl kids, o + c.length + b.length ≤ x.off ∧ x.off < o + c.length + b.length + k.length := by
      intro encl
      by_cases hch : a.children = true
      · rw [if_pos hch] at hk
        exact ihk _ _ encl hk.1
      · rw [if_neg hch] at hk
        obtain ⟨rfl, rfl, rfl⟩ := hk
        simp [fns]
    have hn' := fun encl => ihn _ _ encl hn
    simp only [List.length_append]
    simp only [fns, ha]
    split
    · have h1 := hkids (some o)
      have h2 := hn' encl
      refine ⟨?_, ?_⟩
      · rw [List.map_cons, List.pairwise_cons, List.map_append, List.pairwise_append]
        refine ⟨?_, h1.1, h2.1, ?_⟩
        · intro x hx
          rw [List.mem_append, List.mem_map, List.mem_map] at hx
          rcases hx with ⟨y, hy, rfl⟩ | ⟨y, hy, rfl⟩
          · have := h1.2 y hy; simp only; omega
          · have := h2.2 y hy; simp only; omega
        · intro x hx y hy
          obtain ⟨x', hx', rfl⟩ := List.mem_map.1 hx
          obtain ⟨y', hy', rfl⟩ := List.mem_map.1 hy
          have := h1.2 x' hx'
          have := h2.2 y' hy'
          omega
      · intro x hx
        simp only [List.mem_cons, List.mem_append] at hx
        rcases hx with rfl | hx | hx
        · simp only; omega
        · have := h1.2 x hx; omega
        · have := h2.2 x hx; omega
    · have h1 := hkids encl
      have h2 := hn' encl
      refine ⟨?_, ?_⟩
      · rw [List.map_append, List.pairwise_append]
        refine ⟨h1.1, h2.1, ?_⟩
        intro x hx y hy
        obtain ⟨x', hx', rfl⟩ := List.mem_map.1 hx
        obtain ⟨y', hy', rfl⟩ := List.mem_map.1 hy
        have := h1.2 x' hx'
        have := h2.2 y' hy'
        omega
      · intro x hx
        rcases List.mem_append.1 hx with hx | hx
        · have := h1.2 x hx; omega
        · have := h2.2 x hx; omega

theorem secFns_offsets {e : Endian} {secs : Secs} {wants : Nat → Bool} (us : List (IUnit × List Nat)) : ∀ (off : Nat),
    UnitsAt e secs wants us off → ((secFns us).map FnEntry.off).Pairwise (· < ·) ∧ ∀ x ∈ secFns us, off ≤ x.off := by
  induction us with
  | nil => intro off _; simp [secFns]
  | cons ub us ih =>
    obtain ⟨u, bs⟩ := ub
    intro off h
    obtain ⟨_, _, _, h4, h5⟩ := h
    obtain ⟨i1, i2⟩ := ih _ h5
    obtain ⟨t, body, ht, _, rfl, _, rfl⟩ := h4
    obtain ⟨j1, j2⟩ := fns_offsets u.forest _ _ none ht
    have hil := ilSize_eq e u (u.header e ++ (t ++ u.pad.flatten)).length
    have e1 : secFns ((u, initialLength e u.dwarf64 (u.header e ++ (t ++ u.pad.flatten)).length ++ (u.header e ++ (t ++ u.pad.flatten))) :: us) =
        fns u.abbrevs none u.forest ++ secFns us := rfl
    rw [e1]
    simp only [List.length_append] at i2 hil
    refine ⟨?_, ?_⟩
    · rw [List.map_append, List.pairwise_append]
      refine ⟨j1, i1, ?_⟩
      intro x hx y hy
      obtain ⟨x', hx', rfl⟩ := List.mem_map.1 hx
      obtain ⟨y', hy', rfl⟩ := List.mem_map.1 hy
      have := j2 x' hx'
      have := i2 y' hy'
      omega
    · intro x hx
      rcases List.mem_append.1 hx with hx | hx
      · have := j2 x hx; omega
      · have := i2 x hx; omega

theorem addOffs_append (m : OMap Nat Nat) (l l' : List (Nat × Nat)) :
    addOffs m (l ++ l') = addOffs (addOffs m l) l' := by
  unfold addOffs
  rw [List.foldl_append]

theorem emplace_last (k v : Nat) (m : OMap Nat Nat) (h : ∀ e ∈ m, e.1 < k) : OMap.emplace k v m = m ++ [(k, v)] := by
  unfold OMap.emplace
  induction m with
  | nil => rfl
  | cons a m ih =>
    obtain ⟨k', v'⟩ := a
    have hk := h _ List.mem_cons_self
    unfold OMap.upsert
    simp only at hk
    rw [if_neg (by omega), if_neg (by omega), ih (fun e he => h e (List.mem_cons_of_mem _ he))]
    rfl

theorem addOffs_sorted (l : List (Nat × Nat)) : ∀ (m : OMap Nat Nat), ((m ++ l).map Prod.fst).Pairwise (· < ·) →
    addOffs m l = m ++ l := by
  induction l with
  | nil => intro m _; simp [addOffs]
  | cons x l ih =>
    intro m h
    have e : addOffs m (x :: l) = addOffs (OMap.emplace x.1 x.2 m) l := rfl
    rw [e, emplace_last, ih]
    · simp
    · simpa using h
    · intro y hy
      rw [List.map_append, List.pairwise_append] at h
      exact h.2.2 _ (List.mem_map_of_mem hy) _ (by simp)

/-! ## The section -/

theorem section_walk {env : Env} {e : Endian} {w hi : Nat} {secs : Secs} {D : Nat → Sub} {code : Nat → Bool}
    (us : List (IUnit × List Nat)) : ∀ (off : Nat) (lives : List (Option LSeq)) (s : St) (acc : Reports),
    SecDesc env e w hi secs D code us off lives → s.stack = [] → Rep s.lm acc →
    ∃ s' acc' cs os ix, walkUnits (handler env) e secs us off s = some s' ∧
      s'.heap = s.heap ++ cs ∧ s'.order = s.order ++ os ∧ s'.byOff = addOffs s.byOff ix ∧
      Rep s'.lm (acc ++ acc') ∧ inside hi acc' = (lives.flatMap Option.toList).flatMap LSeq.reports ∧
      ∀ G : List FnEntry, (∀ k x, (secFns us)[k]? = some x → G[s.heap.length + k]? = some x) →
        Piece D G s.heap.length (secFns us) (secKept code us) cs os ix := by
  induction us with
  | nil =>
    intro off lives s acc h hst hm
    refine ⟨s, [], [], [], [], rfl, by simp, by simp, rfl, by simpa using hm, ?_, fun G _ => Piece.nil D G _⟩
    cases h
    rfl
  | cons ub us ih =>
    obtain ⟨u, bs⟩ := ub
    intro off lives s acc h hst hm
    obtain ⟨l, l', h1, h2, rfl⟩ := h
    obtain ⟨s1, a1, w1, w2, w3, w4, w5, w6, w7⟩ := unit_walk h1 bs.length s hst hm
    obtain ⟨s2, a2, cs, os, ix, v1, v3, v4, v5, v6, v7, v8⟩ := ih _ l' s1 _ h2 w2 w6
    refine ⟨s2, a1 ++ a2, _, _, _, ?_, by rw [v3, w3, List.append_assoc], by rw [v4, w4, List.append_assoc],
      (by rw [v5, w5]; exact (addOffs_append _ _ _).symm),
      by rw [← List.append_assoc]; exact v6, ?_, ?_⟩
    · simp only [walkUnits, Option.bind_eq_bind]
      rw [w1]
      exact v1
    · unfold inside at w7 v7 ⊢
      rw [List.filter_append, w7, v7, List.flatMap_append, List.flatMap_append]
    · intro G hG
      have e1 : secFns ((u, bs) :: us) = fns u.abbrevs none u.forest ++ secFns us := rfl
      have e2 : secKept code ((u, bs) :: us) = kept u.abbrevs code none none u.forest ++ secKept code us := rfl
      rw [e1] at hG ⊢
      rw [e2]
      apply Piece.append
      · apply piece_entries
        · exact Or.inl ⟨rfl, rfl⟩
        · intro k x hx
          exact hG k x (by rw [List.getElem?_append_left (List.getElem?_eq_some_iff.1 hx).1]; exact hx)
      · have hl : s1.heap.length = s.heap.length + (fns u.abbrevs none u.forest).length := by
          rw [w3, List.length_append, cells_length, fns_length]
        rw [← hl]
        apply v8
        intro k x hx
        rw [hl, Nat.add_assoc]
        exact hG _ x (by rw [List.getElem?_append_right (by omega), Nat.add_sub_cancel_left]; exact hx)

/-- **C63.** For every `.debug_info` section that consists of well-formed units: if `D` is what its entries for
subprograms and inlined calls say, and `lives` the rows of the line tables of the units, then the section is read; the
subprograms known afterwards are exactly those described, with their fields, their parents and the order, and the line
map has exactly the rows (below `hi`). -/
theorem subprograms_decoded (env : Env) (e : Endian) (w hi : Nat) (secs : Secs) (us : List (IUnit × List Nat))
    (hat : UnitsAt e secs wanted us 0) (hinfo : secs.info = us.flatMap Prod.snd) (D : Nat → Sub) (code : Nat → Bool)
    (lives : List (Option LSeq)) (hd : SecDesc env e w hi secs D code us 0 lives) :
    ∃ s acc, readInfo (handler env) e secs 0 {} = some s ∧
      s.info = infoOf (secKept code us) (secFns us) D ∧
      Rep s.lm acc ∧ inside hi acc = (lives.flatMap Option.toList).flatMap LSeq.reports := by
  obtain ⟨s, acc, cs, os, ix, h1, h2, h3, h4, h5, h6, h7⟩ := section_walk us 0 lives {} [] hd rfl LineMap.rep_empty
  have hp := h7 (secFns us) (fun k x hx => by simpa using hx)
  obtain ⟨hs, _⟩ := secFns_offsets us 0 hat
  refine ⟨s, acc, ?_, ?_, by simpa using h5, h6⟩
  · rw [info_decoded_partial (handler env) e secs (handler_wants env) us hat hinfo]
    exact h1
  · have e2 : s.heap = cs := by simpa using h2
    have e3 : s.order = os := by simpa using h3
    have e4 : s.byOff = ix := by
      rw [h4, addOffs_sorted]
      · rfl
      · have : ([] ++ ix).map Prod.fst = (secFns us).map FnEntry.off := by
          rw [List.nil_append, hp.offs]
          simp
        show (([] ++ ix).map Prod.fst).Pairwise _
        rw [this]
        exact hs
    apply info_of_piece hs
    rw [e2, e3, e4]
    exact hp

/-! ## Parents come later -/

theorem subperm_append {α : Type} {a b c d : List α} (h : a.Subperm b) (h' : c.Subperm d) :
    (a ++ c).Subperm (b ++ d) := by
  obtain ⟨l, p, q⟩ := h
  obtain ⟨l', p', q'⟩ := h'
  exact ⟨l ++ l', p.append p', q.append q'⟩

theorem kept_subperm (abbrevs : List Abbrev) (code : Nat → Bool) (t : Forest) : ∀ live encl,
    (kept abbrevs code live encl t).Subperm (fns abbrevs encl t) := by
  induction t with
  | nil => intros; exact List.Subperm.refl _
  | cons off c vals kids next ihk ihn =>
    intro live encl
    simp only [kept, fns]
    cases abbrevs[c - 1]? with
    | none => exact List.Subperm.refl _
    | some a =>
      simp only
      split
      · split
        · refine (List.perm_middle.subperm).trans ?_
          exact (List.subperm_cons _).2 (subperm_append (ihk _ _) (ihn _ _))
        · refine List.Subperm.trans ?_ (List.sublist_cons_self _ _).subperm
          exact subperm_append (ihk _ _) (ihn _ _)
      · exact subperm_append (ihk _ _) (ihn _ _)

theorem kept_encl (abbrevs : List Abbrev) (code : Nat → Bool) (t : Forest) : ∀ live encl pre x post,
    kept abbrevs code live encl t = pre ++ x :: post → live ≠ some false ∧ 
      (x.encl = encl ∨ ∃ y ∈ post, x.encl = some y.off) := by
  induction t with
  | nil => intro live encl pre x post h; simp [kept] at h
  | cons off c vals kids next ihk ihn =>
    intro live encl pre x post h
    simp only [kept] at h
    cases ha : abbrevs[c - 1]? with
    | none => rw [ha] at h; simp at h
    | some a =>
      rw [ha] at h
      simp only at h
      have split2 : ∀ (A B : List FnEntry), A ++ B = pre ++ x :: post →
          (∃ q, A = pre ++ x :: q ∧ post = q ++ B) ∨ (∃ q, pre = A ++ q ∧ B = q ++ x :: post) := by
        intro A B hAB
        rcases List.append_eq_append_iff.1 hAB with ⟨q, h1, h2⟩ | ⟨q, h1, h2⟩
        · exact Or.inr ⟨q, h1, h2⟩
        · cases q with
          | nil => exact Or.inr ⟨[], by simpa using h1.symm, by simpa using h2.symm⟩
          | cons y q =>
            simp only [List.cons_append, List.cons.injEq] at h2
            obtain ⟨rfl, rfl⟩ := h2
            exact Or.inl ⟨q, h1, rfl⟩
      by_cases hfn : isFn a.tag = true
      · rw [if_pos hfn] at h
        rcases split2 _ _ h with ⟨q, h1, rfl⟩ | ⟨q, rfl, h2⟩
        · obtain ⟨g1, g2⟩ := ihk _ _ _ _ _ h1
          have hl : live.getD (code off) = true := by simpa using g1
          refine ⟨?_, Or.inr ?_⟩
          · rintro rfl; simp at hl
          · rcases g2 with g2 | ⟨y, hy, g2⟩
            · exact ⟨⟨off, a.tag, a.attrs, vals, encl⟩, by simp [hl], g2⟩
            · exact ⟨y, by simp [hy], g2⟩
        · by_cases hl : live.getD (code off) = true
          · rw [if_pos hl] at h2
            cases q with
            | nil =>
              simp only [List.cons_append, List.nil_append, List.cons.injEq] at h2
              obtain ⟨rfl, _⟩ := h2
              refine ⟨?_, Or.inl rfl⟩
              rintro rfl; simp at hl
            | cons y q =>
              simp only [List.cons_append, List.nil_append, List.cons.injEq] at h2
              exact ihn _ _ _ _ _ h2.2
          · rw [if_neg hl] at h2
            exact ihn _ _ _ _ _ h2
      · rw [if_neg hfn] at h
        rcases split2 _ _ h with ⟨q, h1, rfl⟩ | ⟨q, rfl, h2⟩
        · obtain ⟨g1, g2⟩ := ihk _ _ _ _ _ h1
          refine ⟨g1, ?_⟩
          rcases g2 with g2 | ⟨y, hy, g2⟩
          · exact Or.inl g2
          · exact Or.inr ⟨y, by simp [hy], g2⟩
        · exact ihn _ _ _ _ _ h2

theorem secKept_encl (code : Nat → Bool) (us : List (IUnit × List Nat)) : ∀ pre x post,
    secKept code us = pre ++ x :: post → x.encl = none ∨ ∃ y ∈ post, x.encl = some y.off := by
  induction us with
  | nil => intro pre x post h; simp [secKept] at h
  | cons ub us ih =>
    intro pre x post h
    have e2 : secKept code (ub :: us) = kept ub.1.abbrevs code none none ub.1.forest ++ secKept code us := rfl
    rw [e2] at h
    rcases List.append_eq_append_iff.1 h with ⟨q, h1, h2⟩ | ⟨q, h1, h2⟩
    · exact ih _ _ _ h2
    · cases q with
      | nil => exact ih [] _ _ (by simpa using h2.symm)
      | cons y q =>
        simp only [List.cons_append, List.cons.injEq] at h2
        obtain ⟨rfl, rfl⟩ := h2
        rcases (kept_encl _ _ _ _ _ _ _ _ h1).2 with g | ⟨y, hy, g⟩
        · exact Or.inl g
        · exact Or.inr ⟨y, by simp [hy], g⟩

theorem secKept_subperm (code : Nat → Bool) (us : List (IUnit × List Nat)) : (secKept code us).Subperm (secFns us) := by
  induction us with
  | nil => exact List.Subperm.refl _
  | cons ub us ih => exact subperm_append (kept_subperm _ _ _ _ _) ih

/-- **C63, parents.** In the information of a section, a nested subprogram or call has as parent the entry that
encloses it, and the parent comes later in the order; subprograms that are not nested have no parent. -/
theorem parents (e : Endian) (secs : Secs) (us : List (IUnit × List Nat)) (hat : UnitsAt e secs wanted us 0)
    (D : Nat → Sub) (code : Nat → Bool) (i : Nat) (x : FnEntry) (hx : (secKept code us)[i]? = some x) :
    (x.encl = none → (subOf (secKept code us) D x).parent = none) ∧
    ∀ o, x.encl = some o → ∃ p y, (subOf (secKept code us) D x).parent = some p ∧ i < p ∧
      (secKept code us)[p]? = some y ∧ y.off = o := by
  refine ⟨fun h => by simp [subOf, h], ?_⟩
  intro o ho
  obtain ⟨hs, _⟩ := secFns_offsets us 0 hat
  have hndF : ((secFns us).map FnEntry.off).Nodup := hs.imp (fun h => Nat.ne_of_lt h)
  have hnd : ((secKept code us).map FnEntry.off).Nodup := by
    obtain ⟨l, hp, hsub⟩ := secKept_subperm code us
    exact ((hp.map _).nodup_iff).1 (List.Nodup.sublist (hsub.map _) hndF)
  obtain ⟨hi, hxi⟩ := List.getElem?_eq_some_iff.1 hx
  have hsplit : secKept code us = (secKept code us).take i ++ x :: (secKept code us).drop (i + 1) := by
    rw [← hxi, List.getElem_cons_drop, List.take_append_drop]
  rcases secKept_encl code us _ _ _ hsplit with h | ⟨y, hy, h⟩
  · rw [h] at ho; cases ho
  · obtain ⟨j, hj⟩ := List.mem_iff_getElem?.1 hy
    rw [List.getElem?_drop] at hj
    have ey : y.off = o := by rw [ho] at h; exact (Option.some.inj h).symm
    refine ⟨i + 1 + j, y, ?_, by omega, hj, ey⟩
    simp only [subOf, ho, Option.bind_some]
    obtain ⟨hjl, hjy⟩ := List.getElem?_eq_some_iff.1 hj
    rw [List.findIdx?_eq_some_iff_getElem]
    refine ⟨hjl, by rw [hjy]; simpa using ey, ?_⟩
    intro k hk
    simp only [decide_eq_true_eq]
    intro hko
    have h1 : ((secKept code us).map FnEntry.off)[k]? = some o := by
      rw [List.getElem?_map, List.getElem?_eq_getElem (by omega), Option.map_some, hko]
    have h2 : ((secKept code us).map FnEntry.off)[i + 1 + j]? = some o := by
      rw [List.getElem?_map, hj, Option.map_some, ey]
    have := (List.getElem?_inj (by simp; omega) hnd).1 (h1.trans h2.symm)
    omega

theorem parents_later (e : Endian) (secs : Secs) (us : List (IUnit × List Nat)) (hat : UnitsAt e secs wanted us 0)
    (D : Nat → Sub) (code : Nat → Bool) (F : List FnEntry) : ParentsLater (infoOf (secKept code us) F D).order := by
  intro i s p hs hp
  simp only [infoOf, List.getElem?_map, Option.map_eq_some_iff, List.length_map] at hs ⊢
  obtain ⟨x, hx, rfl⟩ := hs
  have h := parents e secs us hat D code i x hx
  cases he : x.encl with
  | none => rw [h.1 he] at hp; cases hp
  | some o =>
    obtain ⟨q, y, h1, h2, h3, _⟩ := h.2 o he
    rw [h1] at hp
    have : q = p := Option.some.inj hp
    subst this
    exact ⟨h2, (List.getElem?_eq_some_iff.1 h3).1⟩

/-- The sequences of described line tables are well formed. -/
theorem described_ok {e : Endian} {w vaddr hi : Nat} {u : Unit4} {lives : List (Option LSeq)}
    (h : Described e w vaddr hi u lives) : ∀ s, some s ∈ lives → s.Ok := by
  have hf := h.seqs
  have : ∀ (p : List (List DwarfLine.Instr)) (ls : List (Option LSeq)),
      List.Forall₂ (fun is live => (∀ s, live = some s → LineMap.IsSeq e w u is s ∧ s.Ok ∧ vaddr ≤ s.lo ∧ s.stop < hi) ∧
      (live = none → LineMap.Dead e w vaddr hi u is)) p ls → ∀ s, some s ∈ ls → s.Ok := by
    intro p ls hf
    induction hf with
    | nil => intro s h; cases h
    | cons hx _ ih =>
      intro s h
      rcases List.mem_cons.1 h with h | h
      · exact (hx.1 s h.symm).2.1
      · exact ih s h
  exact this _ _ hf

theorem live_ok {env : Env} {e : Endian} {w hi : Nat} {secs : Secs} {D : Nat → Sub} {code : Nat → Bool}
    (us : List (IUnit × List Nat)) : ∀ (off : Nat) (lives : List (Option LSeq)),
    SecDesc env e w hi secs D code us off lives → ∀ l ∈ lives.flatMap Option.toList, l.Ok := by
  induction us with
  | nil => intro off lives h; cases h; simp
  | cons ub us ih =>
    obtain ⟨u, bs⟩ := ub
    intro off lives h l hl
    obtain ⟨l1, l2, h1, h2, rfl⟩ := h
    rw [List.flatMap_append, List.mem_append] at hl
    rcases hl with hl | hl
    · obtain ⟨o, ho, hso⟩ := List.mem_flatMap.1 hl
      rw [Option.mem_toList] at hso
      rw [hso] at ho
      cases h1 with
      | other => cases ho
      | program o c vals kids a as U lives hforest ha hcu hkids has hd hoff hver hfns =>
        rcases hd.line with ⟨_, h, _⟩ | ⟨f, v, t, _, _, h, _⟩
        · rw [h] at ho; cases ho
        · exact described_ok h l ho
    · exact ih _ _ h2 l hl

/-- **C63, inline stacks.** From the bytes of the section to inline stacks: with tidy information and line tables that
do not overlap, the section is read, the map of addresses is built, and for every address below `hi` the stack is
empty without a source line; a single frame without a function if no subprogram covers the address; otherwise it has one
frame per subprogram or inlined call that covers the address, from the inside out. -/
theorem inline_stacks_decoded (env : Env) (e : Endian) (w hi : Nat) (secs : Secs) (us : List (IUnit × List Nat))
    (hat : UnitsAt e secs wanted us 0) (hinfo : secs.info = us.flatMap Prod.snd) (D : Nat → Sub) (code : Nat → Bool)
    (lives : List (Option LSeq)) (hd : SecDesc env e w hi secs D code us 0 lives)
    (hok : StackOk env.vaddr (infoOf (secKept code us) (secFns us) D))
    (hap : (lives.flatMap Option.toList).Pairwise Disj) :
    ∃ s m, readInfo (handler env) e secs 0 {} = some s ∧ s.info = infoOf (secKept code us) (secFns us) D ∧
      populate env.vaddr s.info.order = some m ∧ ∀ a, a < hi →
        ((∀ id, id.line ≠ 0 → ¬ Found (lives.flatMap Option.toList) a id) → inlineStack s.info s.lm m a = some []) ∧
        ∀ id, id.line ≠ 0 → Found (lives.flatMap Option.toList) a id →
          ((∀ i t, Kept env.vaddr s.info.order i t → ¬ t.Has a) → inlineStack s.info s.lm m a = some [
            { func := none, dir := id.dir, file := id.file, start := 0, line := id.line, discr := id.discr }]) ∧
          (∀ i t, Kept env.vaddr s.info.order i t → t.Has a → ∃ cs fs, inlineStack s.info s.lm m a = some fs ∧
            InsideOut env.vaddr s.info.order a cs ∧ IsStack s.info id cs fs) := by
  have hls := live_ok us 0 lives hd
  obtain ⟨s, acc, h1, h2, h3, h4⟩ := subprograms_decoded env e w hi secs us hat hinfo D code lives hd
  rw [← h2] at hok
  obtain ⟨m, hm, hst⟩ := inline_stack env.vaddr s.info s.lm hok
  refine ⟨s, m, h1, h2, hm, ?_⟩
  intro a ha
  have hlook : ∀ id, LineMap.lookup s.lm a = some (some id) ↔ id.line ≠ 0 ∧ Found (lives.flatMap Option.toList) a id := by
    intro id
    rw [LineMap.lookup_iff h3, ← LineMap.ans_inside acc hi a ha, h4, LineMap.ans_sequences _ hls hap]
  obtain ⟨q1, q2, q3⟩ := hst a
  refine ⟨?_, ?_⟩
  · intro hno
    apply q1
    cases hl : LineMap.lookup s.lm a with
    | none => exact absurd hl (LineMap.lookup_defined h3 a)
    | some o =>
      cases o with
      | none => rfl
      | some id =>
        have := (hlook id).1 hl
        exact absurd this.2 (hno id this.1)
  · intro id hid hf
    have hl := (hlook id).2 ⟨hid, hf⟩
    exact ⟨q2 id hl, fun i t => q3 id i t hl⟩

end Verif.InlineHandler
