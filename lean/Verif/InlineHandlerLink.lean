import Verif.InlineHandlerWalk

/-! # C63: the handler's subprograms against the entries of the section -/
namespace Verif.InlineHandler
open Verif Verif.DwarfInfo Verif.Inline

/-! ## Specification -/

/-- What an entry says, with its parent as a position in the list of kept entries. -/
def subOf (K : List FnEntry) (D : Nat → Sub) (x : FnEntry) : Sub :=
  { D x.off with parent := x.encl.bind fun o => K.findIdx? fun y => decide (y.off = o) }

/-- The information in a section: the kept entries in their order, and all entries by offset. -/
def infoOf (K F : List FnEntry) (D : Nat → Sub) : Info :=
  { order := K.map (subOf K D), byOffset := [F.map fun x => (x.off, subOf K D x)] }

/-! ## Proof -/

/-- Position of the parent and offset of the enclosing entry. -/
def ParOk (G : List FnEntry) (P : Option Nat) (encl : Option Nat) : Prop :=
  (P = none ∧ encl = none) ∨ ∃ p y, P = some p ∧ G[p]? = some y ∧ encl = some y.off

/-- Subprograms, insert order and offsets of a part of the section, from position `n` on. -/
structure Piece (D : Nat → Sub) (G : List FnEntry) (n : Nat) (F K : List FnEntry) (cs : List Cell) (os : List Nat)
    (ix : List (Nat × Nat)) : Prop where
  len : cs.length = F.length
  sub : ∀ (k : Nat) (x : FnEntry), F[k]? = some x → ∃ (c : Cell) (P : Option Nat), cs[k]? = some c ∧
    c.sub = { D x.off with parent := P } ∧ ParOk G P x.encl
  ord : os.map (fun i => G[i]?) = K.map some
  offs : ix = (F.map FnEntry.off).zipIdx n

theorem fns_length (abbrevs : List Abbrev) (t : Forest) : ∀ encl, (fns abbrevs encl t).length = size abbrevs t := by
  induction t with
  | nil => intros; rfl
  | cons off c vals kids next ihk ihn =>
    intro encl
    simp only [fns, size]
    cases abbrevs[c - 1]? with
    | none => rfl
    | some a =>
      simp only
      split
      · simp [ihk, ihn]; omega
      · simp [ihk, ihn]

theorem Piece.nil (D : Nat → Sub) (G : List FnEntry) (n : Nat) : Piece D G n [] [] [] [] [] :=
  ⟨rfl, by simp, rfl, rfl⟩

theorem Piece.append {D : Nat → Sub} {G : List FnEntry} {n : Nat} {F K F' K' : List FnEntry} {cs cs' : List Cell}
    {os os' : List Nat} {ix ix' : List (Nat × Nat)} (h : Piece D G n F K cs os ix)
    (h' : Piece D G (n + F.length) F' K' cs' os' ix') :
    Piece D G n (F ++ F') (K ++ K') (cs ++ cs') (os ++ os') (ix ++ ix') := by
  refine ⟨by simp [h.len, h'.len], ?_, by simp [h.ord, h'.ord], ?_⟩
  · intro k x hx
    by_cases hk : k < F.length
    · rw [List.getElem?_append_left hk] at hx
      obtain ⟨c, P, h1, h2, h3⟩ := h.sub k x hx
      exact ⟨c, P, by rw [List.getElem?_append_left (by rw [h.len]; exact hk)]; exact h1, h2, h3⟩
    · rw [List.getElem?_append_right (by omega)] at hx
      obtain ⟨c, P, h1, h2, h3⟩ := h'.sub _ x hx
      exact ⟨c, P, by rw [List.getElem?_append_right (by rw [h.len]; omega), h.len]; exact h1, h2, h3⟩
  · rw [List.map_append, List.zipIdx_append, h.offs, h'.offs]
    simp [Nat.add_comm]

theorem piece_entries (abbrevs : List Abbrev) (D : Nat → Sub) (code : Nat → Bool) (G : List FnEntry) (t : Forest) :
    ∀ (n : Nat) (par : Option Nat) (live : Option Bool) (encl : Option Nat), ParOk G par encl →
    (∀ k x, (fns abbrevs encl t)[k]? = some x → G[n + k]? = some x) →
    Piece D G n (fns abbrevs encl t) (kept abbrevs code live encl t) (cells abbrevs D code n par live t)
      (ord abbrevs code n live t) (offIdx abbrevs n t) := by
  induction t with
  | nil => intro n par live encl _ _; exact Piece.nil D G n
  | cons off c vals kids next ihk ihn =>
    intro n par live encl hpar hG
    simp only [fns, kept, cells, ord, offIdx] at hG ⊢
    cases ha : abbrevs[c - 1]? with
    | none => exact Piece.nil D G n
    | some a =>
      rw [ha] at hG
      simp only at hG ⊢
      by_cases hfn : isFn a.tag = true
      · simp only [if_pos hfn] at hG ⊢
        have h0 := hG 0 _ (List.getElem?_cons_zero)
        rw [Nat.add_zero] at h0
        have hk := ihk (n + 1) (some n) (some (live.getD (code off))) (some off)
          (Or.inr ⟨n, _, rfl, h0, rfl⟩) (by
            intro k x hx
            have hlt := (List.getElem?_eq_some_iff.1 hx).1
            have := hG (k + 1) x (by
              rw [List.getElem?_cons_succ, List.getElem?_append_left hlt]; exact hx)
            rw [show n + 1 + k = n + (k + 1) by omega]; exact this)
        have hn := ihn (n + 1 + size abbrevs kids) par live encl hpar (by
            intro k x hx
            have := hG (size abbrevs kids + k + 1) x (by
              rw [List.getElem?_cons_succ, List.getElem?_append_right (by rw [fns_length]; omega), fns_length,
                Nat.add_sub_cancel_left]; exact hx)
            rw [show n + 1 + size abbrevs kids + k = n + (size abbrevs kids + k + 1) by omega]; exact this)
        have hkn := hk.append (by rw [fns_length]; exact hn)
        rw [cells_length]
        refine ⟨by simpa using hkn.len, ?_, ?_, ?_⟩
        · intro k x hx
          cases k with
          | zero =>
            simp only [List.getElem?_cons_zero, Option.some.injEq] at hx
            subst hx
            exact ⟨_, par, rfl, rfl, hpar⟩
          | succ k => exact hkn.sub k x hx
        · rw [List.map_append, List.map_append, List.map_append, List.map_append, hk.ord, hn.ord]
          congr 2
          split
          · simp [h0]
          · rfl
        · rw [List.map_cons, List.zipIdx_cons, ← hkn.offs]
      · simp only [if_neg hfn] at hG ⊢
        have hk := ihk n par live encl hpar (by
            intro k x hx
            have hlt := (List.getElem?_eq_some_iff.1 hx).1
            exact hG k x (by rw [List.getElem?_append_left hlt]; exact hx))
        have hn := ihn (n + size abbrevs kids) par live encl hpar (by
            intro k x hx
            have := hG (size abbrevs kids + k) x (by
              rw [List.getElem?_append_right (by rw [fns_length]; omega), fns_length, Nat.add_sub_cancel_left]; exact hx)
            rw [Nat.add_assoc]; exact this)
        rw [cells_length]
        exact hk.append (by rw [fns_length]; exact hn)

/-- Positions in the insert order. -/
theorem ord_index (G : List FnEntry) (hnd : (G.map FnEntry.off).Nodup) (p : Nat) (y : FnEntry) (hp : G[p]? = some y)
    (os : List Nat) : ∀ (K : List FnEntry), os.map (fun i => G[i]?) = K.map some →
    os.idxOf? p = K.findIdx? fun x => decide (x.off = y.off) := by
  induction os with
  | nil =>
    intro K h
    cases K with
    | nil => rfl
    | cons _ _ => cases h
  | cons i os ih =>
    intro K h
    cases K with
    | nil => cases h
    | cons x K =>
      simp only [List.map_cons, List.cons.injEq] at h
      rw [List.idxOf?_cons, List.findIdx?_cons, ih K h.2]
      have : (i == p) = decide (x.off = y.off) := by
        rw [Bool.eq_iff_iff, beq_iff_eq, decide_eq_true_iff]
        constructor
        · rintro rfl
          rw [hp] at h
          have := Option.some.inj h.1
          rw [this]
        · intro e
          have h1 : (G.map FnEntry.off)[i]? = some y.off := by rw [List.getElem?_map, h.1, Option.map_some, e]
          have h2 : (G.map FnEntry.off)[p]? = some y.off := by rw [List.getElem?_map, hp]; rfl
          have hi := (List.getElem?_eq_some_iff.1 h1).1
          exact (List.getElem?_inj hi hnd).1 (h1.trans h2.symm)
      rw [this]

/-- The whole section. -/
theorem info_of_piece {D : Nat → Sub} {G K : List FnEntry} {s : St} (hnd : (G.map FnEntry.off).Pairwise (· < ·))
    (h : Piece D G 0 G K s.heap s.order s.byOff) : s.info = infoOf K G D := by
  have hoff := h.offs
  have hnd' : (G.map FnEntry.off).Nodup := hnd.imp (fun h => Nat.ne_of_lt h)
  have hsub : ∀ (i : Nat) (x : FnEntry), G[i]? = some x → ∃ c, s.heap[i]? = some c ∧ s.sub c = subOf K D x := by
    intro i x hx
    obtain ⟨c, P, h1, h2, h3⟩ := h.sub i x hx
    refine ⟨c, h1, ?_⟩
    unfold St.sub subOf
    rw [h2]
    rcases h3 with ⟨rfl, he⟩ | ⟨p, y, rfl, hy, he⟩
    · simp [he]
    · simp only [he, Option.bind_some]
      rw [ord_index G hnd' p y hy s.order K h.ord]
  have h1 : ∀ (os : List Nat) (K' : List FnEntry), os.map (fun i => G[i]?) = K'.map some →
      os.filterMap (fun i => (s.heap[i]?).map s.sub) = K'.map (subOf K D) := by
    intro os
    induction os with
    | nil =>
      intro K' he
      cases K' with
      | nil => rfl
      | cons _ _ => cases he
    | cons i os ih =>
      intro K' he
      cases K' with
      | nil => cases he
      | cons x K' =>
        simp only [List.map_cons, List.cons.injEq] at he
        obtain ⟨c, hc, hs⟩ := hsub i x he.1
        rw [List.filterMap_cons_some (by rw [hc]; rfl), ih K' he.2, List.map_cons, hs]
  have h2 : ∀ (F : List FnEntry) (n : Nat), (∀ (k : Nat) (x : FnEntry), F[k]? = some x → G[n + k]? = some x) →
      ((F.map FnEntry.off).zipIdx n).filterMap (fun e => (s.heap[e.2]?).map fun c => (e.1, s.sub c)) =
        F.map fun x => (x.off, subOf K D x) := by
    intro F
    induction F with
    | nil => intros; rfl
    | cons x F ih =>
      intro n hF
      obtain ⟨c, hc, hs⟩ := hsub n x (by simpa using hF 0 x rfl)
      rw [List.map_cons, List.zipIdx_cons, List.filterMap_cons_some (by simp only [hc]; rfl), ih (n + 1), List.map_cons]
      · simp only [hs]
      · intro k y hy
        rw [show n + 1 + k = n + (k + 1) by omega]
        exact hF (k + 1) y (by simpa using hy)
  unfold St.info infoOf
  rw [h1 _ _ h.ord, hoff, h2 G 0 (by simp)]

end Verif.InlineHandler
