import Verif.InlineHandlerFn

/-! # C63: the entries of a unit through the handler -/
namespace Verif.InlineHandler
open Verif Verif.DwarfInfo Verif.Inline
open Verif.LineMap (LMap Tab)
open Verif.DwarfLine (Ev)

/-! ## Specification -/

/-- An entry for a subprogram or an inlined call: its offset, tag and attributes, and the offset of the nearest
enclosing subprogram or inlined call. -/
structure FnEntry where
  off : Nat
  tag : Nat
  specs : List Spec
  vals : List (Nat × Raw)
  encl : Option Nat

/-- All subprograms and inlined calls of a list of entries, in the order of the section. -/
def fns (abbrevs : List Abbrev) : Option Nat → Forest → List FnEntry
  | _, .nil => []
  | encl, .cons off code vals kids next =>
    match abbrevs[code - 1]? with
    | none => []
    | some a =>
      if isFn a.tag then
        ⟨off, a.tag, a.attrs, vals, encl⟩ :: (fns abbrevs (some off) kids ++ fns abbrevs encl next)
      else fns abbrevs encl kids ++ fns abbrevs encl next

/-- The subprograms and inlined calls whose outermost subprogram is code of the program (`code`), each one after those
it encloses.  `live`: whether the enclosing outermost subprogram is code, if there is one. -/
def kept (abbrevs : List Abbrev) (code : Nat → Bool) : Option Bool → Option Nat → Forest → List FnEntry
  | _, _, .nil => []
  | live, encl, .cons off c vals kids next =>
    match abbrevs[c - 1]? with
    | none => []
    | some a =>
      if isFn a.tag then
        kept abbrevs code (some (live.getD (code off))) (some off) kids ++
          ((if live.getD (code off) then [⟨off, a.tag, a.attrs, vals, encl⟩] else []) ++
            kept abbrevs code live encl next)
      else kept abbrevs code live encl kids ++ kept abbrevs code live encl next

/-- `d` is what an entry of the unit says. -/
def DescIn (env : Env) (cx : Ctx) (U : UCtx) (x : FnEntry) (d : Sub) (code : Bool) : Prop :=
  ∃ as, attrsOf cx U.sb U.ab x.specs x.vals = some as ∧ FnDesc env U x.off x.tag as d code

/-- All entries have an abbreviation, and none of them is a unit. -/
def Inner (abbrevs : List Abbrev) : Forest → Prop
  | .nil => True
  | .cons _ code _ kids next => (∃ a, abbrevs[code - 1]? = some a ∧ isCu a.tag = false) ∧ Inner abbrevs kids ∧ Inner abbrevs next

/-! ## Proof -/

/-- The subprograms the handler creates, in the order of the section; positions start at `n`. -/
def cells (abbrevs : List Abbrev) (D : Nat → Sub) (code : Nat → Bool) : Nat → Option Nat → Option Bool → Forest → List Cell
  | _, _, _, .nil => []
  | n, par, live, .cons off c _ kids next =>
    match abbrevs[c - 1]? with
    | none => []
    | some a =>
      if isFn a.tag then
        let ks := cells abbrevs D code (n + 1) (some n) (some (live.getD (code off))) kids
        ⟨{ D off with parent := par }, live.getD (code off)⟩ ::
          (ks ++ cells abbrevs D code (n + 1 + ks.length) par live next)
      else
        let ks := cells abbrevs D code n par live kids
        ks ++ cells abbrevs D code (n + ks.length) par live next

/-- The number of subprograms. -/
def size (abbrevs : List Abbrev) : Forest → Nat
  | .nil => 0
  | .cons _ c _ kids next =>
    match abbrevs[c - 1]? with
    | none => 0
    | some a => (if isFn a.tag then 1 else 0) + size abbrevs kids + size abbrevs next

/-- The positions that go into the insert order. -/
def ord (abbrevs : List Abbrev) (code : Nat → Bool) : Nat → Option Bool → Forest → List Nat
  | _, _, .nil => []
  | n, live, .cons off c _ kids next =>
    match abbrevs[c - 1]? with
    | none => []
    | some a =>
      if isFn a.tag then
        ord abbrevs code (n + 1) (some (live.getD (code off))) kids ++
          ((if live.getD (code off) then [n] else []) ++ ord abbrevs code (n + 1 + size abbrevs kids) live next)
      else ord abbrevs code n live kids ++ ord abbrevs code (n + size abbrevs kids) live next

/-- The offsets with positions. -/
def offIdx (abbrevs : List Abbrev) : Nat → Forest → List (Nat × Nat)
  | _, .nil => []
  | n, .cons off c _ kids next =>
    match abbrevs[c - 1]? with
    | none => []
    | some a =>
      if isFn a.tag then
        (off, n) :: (offIdx abbrevs (n + 1) kids ++ offIdx abbrevs (n + 1 + size abbrevs kids) next)
      else offIdx abbrevs n kids ++ offIdx abbrevs (n + size abbrevs kids) next

def addOffs (m : OMap Nat Nat) (l : List (Nat × Nat)) : OMap Nat Nat := l.foldl (fun m e => OMap.emplace e.1 e.2 m) m

theorem cells_length (abbrevs : List Abbrev) (D : Nat → Sub) (code : Nat → Bool) (t : Forest) : ∀ n par live,
    (cells abbrevs D code n par live t).length = size abbrevs t := by
  induction t with
  | nil => intros; rfl
  | cons off c vals kids next ihk ihn =>
    intro n par live
    simp only [cells, size]
    cases abbrevs[c - 1]? with
    | none => rfl
    | some a =>
      simp only
      split
      · simp [ihk, ihn]; omega
      · simp [ihk, ihn]

/-- The state after a list of entries. -/
def after (abbrevs : List Abbrev) (D : Nat → Sub) (code : Nat → Bool) (s : St) (live : Option Bool) (t : Forest) : St :=
  { s with heap := s.heap ++ cells abbrevs D code s.heap.length s.stack.head? live t
           order := s.order ++ ord abbrevs code s.heap.length live t
           byOff := addOffs s.byOff (offIdx abbrevs s.heap.length t) }

/-- The enclosing outermost subprogram and whether it is code. -/
def Root (s : St) (live : Option Bool) : Prop :=
  match s.stack.getLast? with
  | none => live = none
  | some r => ∃ c, s.heap[r]? = some c ∧ live = some c.used

theorem root_used {s : St} {b : Bool} (h : Root s (some b)) : rootUsed s = b := by
  unfold Root at h
  unfold rootUsed
  cases hl : s.stack.getLast? with
  | none => rw [hl] at h; cases h
  | some r =>
    rw [hl] at h
    obtain ⟨c, hc, hb⟩ := h
    simp only [Option.some.injEq] at hb
    simp [hc, hb]

theorem modify_append_self {α : Type} (l : List α) (c : α) (r : List α) (f : α → α) :
    (l ++ c :: r).modify l.length f = l ++ f c :: r := by
  induction l with
  | nil => rfl
  | cons x xs ih => simp [ih]

theorem endDie_fn {s : St} {tag i : Nat} {tags st : List Nat} {b : Bool} (ht : s.tags = tag :: tags) (hfn : isFn tag = true)
    (hs : s.stack = i :: st) (hr : rootUsed s = b) :
    endDie s = some (if b then { s with tags := tags, heap := s.heap.modify i (fun c => { c with used := true }), order := s.order ++ [i], stack := st }
      else { s with tags := tags, stack := st }) := by
  obtain ⟨t, hp, sk, o, bo, u, ba, v, cd, ab, sb, rb, tb, lm⟩ := s
  simp only at ht hs
  subst ht hs
  have hr' : ∀ t', rootUsed ⟨t', hp, i :: st, o, bo, u, ba, v, cd, ab, sb, rb, tb, lm⟩ = b := fun _ => hr
  simp only [endDie, hfn, if_true, hr']
  cases b <;> rfl

/-- The state after an entry for a subprogram. -/
def afterFn (abbrevs : List Abbrev) (D : Nat → Sub) (code : Nat → Bool) (s : St) (live : Option Bool) (off : Nat)
    (kids : Forest) : St :=
  { s with heap := s.heap ++ ⟨{ D off with parent := s.stack.head? }, live.getD (code off)⟩ ::
                      cells abbrevs D code (s.heap.length + 1) (some s.heap.length) (some (live.getD (code off))) kids
           order := s.order ++ (ord abbrevs code (s.heap.length + 1) (some (live.getD (code off))) kids ++
                      (if live.getD (code off) then [s.heap.length] else []))
           byOff := addOffs s.byOff ((off, s.heap.length) :: offIdx abbrevs (s.heap.length + 1) kids) }

theorem walk_entries (env : Env) (cx : Ctx) (abbrevs : List Abbrev) (U : UCtx) (D : Nat → Sub) (code : Nat → Bool)
    (t : Forest) : ∀ (s : St) (live : Option Bool) (encl : Option Nat), Inner abbrevs t → InUnit U s → Root s live →
    (∀ x ∈ fns abbrevs encl t, DescIn env cx U x (D x.off) (code x.off)) →
    t.walk (handler env) cx abbrevs s = some (after abbrevs D code s live t) := by
  induction t with
  | nil =>
    intro s live encl _ _ _ _
    simp [Forest.walk, after, cells, ord, offIdx, addOffs]
  | cons off c vals kids next ihk ihn =>
    intro s live encl hin hU hroot hdesc
    obtain ⟨⟨a, ha, hcu⟩, hik, hinx⟩ := hin
    simp only [fns, ha] at hdesc
    simp only [Forest.walk, ha, Option.bind_eq_bind, Option.bind_some]
    by_cases hfn : isFn a.tag = true
    · rw [if_pos hfn] at hdesc
      obtain ⟨as, has, hd⟩ := hdesc ⟨off, a.tag, a.attrs, vals, encl⟩ (by simp)
      -- the entry itself
      let c1 : Cell := ⟨{ D off with parent := s.stack.head? }, s.stack.isEmpty && code off⟩
      let s1 : St := { s with tags := a.tag :: s.tags, heap := s.heap ++ [c1], stack := s.heap.length :: s.stack,
                              byOff := OMap.emplace off s.heap.length s.byOff }
      have h0 : (handler env).startDie s off a.tag a.attrs = some (startDie s off a.tag) := rfl
      have h1 : (startDie s off a.tag).2 = true := by simp [startDie, hfn]
      have h2 : report (handler env) cx off a.attrs vals (startDie s off a.tag).1 = some s1 := by
        let s0 : St := { s with tags := a.tag :: s.tags, heap := s.heap ++ [newCell { s with tags := a.tag :: s.tags } off a.tag], stack := s.heap.length :: s.stack, byOff := OMap.emplace off s.heap.length s.byOff }
        have e : (startDie s off a.tag).1 = s0 := by simp [startDie, hfn, s0]
        rw [e]
        have hcell := fn_cell (s := s0)
          ⟨hU.off, hU.base, hU.version, hU.compDir, hU.files, hU.sb, hU.ab, hU.rb⟩ hd s.stack.isEmpty s.stack.head?
        have hc : newCell { s with tags := a.tag :: s.tags } off a.tag =
            { sub := { inlined := decide (a.tag = 0x1d), parent := s.stack.head?, ranges := [], offset := off,
                       fileIndex := 0, compDir := U.compDir }
              used := false } := by
          simp [newCell, hU.compDir]
        rw [← hc] at hcell
        have := report_fn env cx U.sb U.ab off a.tag s.heap.length s.stack a.attrs vals s0 as _ _ rfl rfl (by simp [s0]) hU.sb hU.ab has hd.plain hcell
        rw [this]
        simp [upd, s0, s1, c1, modify_append_self]
      rw [h0]
      simp only [Option.bind_some, h1, reportIf, if_true, h2]
      -- the entries below
      have hroot1 : Root s1 (some (live.getD (code off))) := by
        unfold Root at hroot ⊢
        cases hst : s.stack with
        | nil =>
          rw [hst] at hroot
          simp only [List.getLast?_nil] at hroot
          subst hroot
          simp [s1, c1, hst]
        | cons i st =>
          rw [hst] at hroot
          obtain ⟨r, hr⟩ : ∃ r, (i :: st).getLast? = some r := ⟨_, List.getLast?_eq_getLast_of_ne_nil (by simp)⟩
          rw [hr] at hroot
          obtain ⟨cr, hcr, hl⟩ := hroot
          subst hl
          have hlt := (List.getElem?_eq_some_iff.1 hcr).1
          simp only [s1, hst, List.getLast?_cons_cons, hr]
          refine ⟨cr, ?_, rfl⟩
          rw [List.getElem?_append_left hlt, hcr]
      have hk := ihk s1 (some (live.getD (code off))) (some off) hik
        ⟨hU.off, hU.base, hU.version, hU.compDir, hU.files, hU.sb, hU.ab, hU.rb⟩ hroot1
        (fun x hx => hdesc x (by simp [hx]))
      rw [hk]
      simp only [Option.bind_some]
      -- the end of the entry
      have hroot2 : Root (after abbrevs D code s1 (some (live.getD (code off))) kids) (some (live.getD (code off))) := by
        unfold Root at hroot1 ⊢
        have e : (after abbrevs D code s1 (some (live.getD (code off))) kids).stack = s1.stack := rfl
        rw [e]
        cases hl : s1.stack.getLast? with
        | none => rw [hl] at hroot1; exact hroot1
        | some r =>
          rw [hl] at hroot1
          obtain ⟨cr, hcr, hb⟩ := hroot1
          refine ⟨cr, ?_, hb⟩
          have hlt := (List.getElem?_eq_some_iff.1 hcr).1
          simp only [after]
          rw [List.getElem?_append_left hlt, hcr]
      have hend : (handler env).endDie (after abbrevs D code s1 (some (live.getD (code off))) kids) off = some
          (afterFn abbrevs D code s live off kids) := by
        show endDie (after abbrevs D code s1 (some (live.getD (code off))) kids) = _
        rw [endDie_fn (tag := a.tag) (tags := s.tags) (i := s.heap.length) (st := s.stack) rfl hfn rfl (root_used hroot2)]
        have hn : s1.heap.length = s.heap.length + 1 := by simp [s1]
        have hcase : live.getD (code off) = false → (s.stack.isEmpty && code off) = false := by
          intro hb
          cases hst : s.stack with
          | nil =>
            unfold Root at hroot
            rw [hst] at hroot
            simp only [List.getLast?_nil] at hroot
            subst hroot
            simpa using hb
          | cons i st => rfl
        cases hb : live.getD (code off) with
        | true =>
          simp only [if_true, after, hn, s1, List.head?_cons, List.append_assoc, List.singleton_append]
          rw [modify_append_self]
          simp [c1, addOffs, afterFn, hb]
        | false =>
          have := hcase hb
          simp only [after, hn, s1, List.head?_cons, List.append_assoc, List.singleton_append]
          simp [c1, addOffs, this, afterFn, hb]
      rw [hend]
      simp only [Option.bind_some]
      -- the entries after it
      have hrootn : Root (afterFn abbrevs D code s live off kids) live := by
        have est : (afterFn abbrevs D code s live off kids).stack = s.stack := rfl
        unfold Root at hroot ⊢
        rw [est]
        cases hl : s.stack.getLast? with
        | none => rw [hl] at hroot; exact hroot
        | some r =>
          rw [hl] at hroot
          obtain ⟨cr, hcr, hb⟩ := hroot
          refine ⟨cr, ?_, hb⟩
          have hlt := (List.getElem?_eq_some_iff.1 hcr).1
          simp only [afterFn]
          rw [List.getElem?_append_left hlt, hcr]
      have hn := ihn (afterFn abbrevs D code s live off kids) live encl hinx (InUnit.mk hU.off hU.base hU.version hU.compDir hU.files hU.sb hU.ab hU.rb) hrootn
        (fun x hx => hdesc x (by simp [hx]))
      rw [hn]
      have hlen : (s.heap ++ ⟨{ D off with parent := s.stack.head? }, live.getD (code off)⟩ ::
          cells abbrevs D code (s.heap.length + 1) (some s.heap.length) (some (live.getD (code off))) kids).length =
          s.heap.length + 1 + size abbrevs kids := by
        simp [cells_length]; omega
      simp only [after, afterFn, hlen, cells, ord, offIdx, ha, if_pos hfn, cells_length, addOffs, List.foldl_append,
        List.foldl_cons, List.append_assoc, List.cons_append]
    · rw [if_neg hfn] at hdesc
      have h0 : (handler env).startDie s off a.tag a.attrs = some ({ s with tags := a.tag :: s.tags }, false) := by
        show some (startDie s off a.tag) = _
        simp [startDie, hfn, hcu]
      rw [h0]
      simp only [Option.bind_some, reportIf]
      have hk := ihk { s with tags := a.tag :: s.tags } live encl hik
        ⟨hU.off, hU.base, hU.version, hU.compDir, hU.files, hU.sb, hU.ab, hU.rb⟩ hroot
        (fun x hx => hdesc x (by simp [hx]))
      simp only [Bool.false_eq_true, if_false, Option.bind_some]
      rw [hk]
      simp only [Option.bind_some]
      have hend : (handler env).endDie (after abbrevs D code { s with tags := a.tag :: s.tags } live kids) off = some
          (after abbrevs D code s live kids) := by
        show endDie (after abbrevs D code { s with tags := a.tag :: s.tags } live kids) = _
        unfold endDie
        have e1 : (after abbrevs D code { s with tags := a.tag :: s.tags } live kids).tags = a.tag :: s.tags := rfl
        rw [e1]
        simp only [hfn]
        rfl
      rw [hend]
      simp only [Option.bind_some]
      have hrootn : Root (after abbrevs D code s live kids) live := by
        unfold Root at hroot ⊢
        have e : (after abbrevs D code s live kids).stack = s.stack := rfl
        rw [e]
        cases hl : s.stack.getLast? with
        | none => rw [hl] at hroot; exact hroot
        | some r =>
          rw [hl] at hroot
          obtain ⟨cr, hcr, hb⟩ := hroot
          refine ⟨cr, ?_, hb⟩
          have hlt := (List.getElem?_eq_some_iff.1 hcr).1
          simp only [after]
          rw [List.getElem?_append_left hlt, hcr]
      have hn := ihn (after abbrevs D code s live kids) live encl hinx
        (InUnit.mk hU.off hU.base hU.version hU.compDir hU.files hU.sb hU.ab hU.rb) hrootn
        (fun x hx => hdesc x (by simp [hx]))
      rw [hn]
      have hlen : (s.heap ++ cells abbrevs D code s.heap.length s.stack.head? live kids).length =
          s.heap.length + size abbrevs kids := by
        simp [cells_length]
      simp only [after, hlen, cells, ord, offIdx, ha, if_neg hfn, cells_length, addOffs, List.foldl_append,
        List.append_assoc]

end Verif.InlineHandler
