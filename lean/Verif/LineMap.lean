import Verif.DwarfLineUnit
import Verif.OMap

/-! # C59: from addresses to source lines (util/symbolize/functioninfo.{h,cc}, legacy_addr2line.cc)

The line table handler and the map it fills, for normal (not two-level) line tables.  `none` is a failed
`CHECK`.  Simplification: the number of stored lines stays below 2^32. -/
namespace Verif.LineMap
open Verif Verif.DwarfLine

/-- A name. -/
abbrev Name := List Nat

/-- `LineIdentifier` (functioninfo.h:51-64) without the fields for two-level tables. -/
structure LineId where
  dir : Name
  file : Name
  line : Nat
  discr : Nat
deriving DecidableEq, Repr

/-- `AddressToLineMap` (functioninfo.h:66-190) for normal tables: `logical_lines_` and `line_map_`. -/
structure LMap where
  logical : List LineId
  map : OMap Nat Nat
deriving DecidableEq

/-- `AddressToLineMap::AddLine` (functioninfo.h:106-110). -/
def LMap.addLine (m : LMap) (addr : Nat) (id : LineId) : LMap :=
  { logical := m.logical ++ [id], map := OMap.set addr (m.logical.length + 1) m.map }

/-- `AddressToLineMap::AddActual` (functioninfo.h:146-148). -/
def LMap.addActual (m : LMap) (addr num : Nat) : LMap := { m with map := OMap.set addr num m.map }

/-- `CULineInfoHandler`: the directories and files of the unit, both with a dummy entry 0
(functioninfo.cc:54-61). -/
structure Tab where
  dirs : List Name
  files : List (Nat × Name)

/-- `Init` (functioninfo.cc:54-61). -/
def Tab.init : Tab := { dirs := [[]], files := [(0, [])] }

/-- `ShouldAddAddress` (functioninfo.cc:67-87). -/
def shouldAdd (vaddr : Nat) (sampled : Option (OMap Nat Nat)) (a : Nat) : Bool :=
  if a < vaddr then false
  else
    match sampled with
    | none => true
    | some m =>
      match OMap.floor? m a with
      | none => false
      | some (s, l) => decide (a < (s + l) % 2 ^ 64)

/-- The handler's callbacks `DefineDir`, `DefineFile` and `AddLine` (functioninfo.cc:89-106, 161-191). -/
def handle (vaddr : Nat) (sampled : Option (OMap Nat Nat)) (s : Tab × LMap) : Ev → Option (Tab × LMap)
  | .dir name i =>
    if i = s.1.dirs.length then some ({ s.1 with dirs := s.1.dirs ++ [name] }, s.2) else none
  | .file name i d _ _ =>
    if d < s.1.dirs.length then
      if i = s.1.files.length ∨ i = -1 then some ({ s.1 with files := s.1.files ++ [(d, name)] }, s.2)
      else some s
    else none
  | .line a f l _ d e =>
    if shouldAdd vaddr sampled a then
      if e then some (s.1, s.2.addActual a 0)
      else
        match s.1.files[f]? with
        | none => some s
        | some (di, name) =>
          match s.1.dirs[di]? with
          | none => some s
          | some dir => some (s.1, s.2.addLine a { dir := dir, file := name, line := l, discr := d })
    else some s

/-- One unit: a fresh handler on the shared map (legacy_addr2line.cc:166-171). -/
def handleUnit (vaddr : Nat) (sampled : Option (OMap Nat Nat)) (m : LMap) (evs : List Ev) : Option LMap :=
  (evs.foldlM (handle vaddr sampled) (Tab.init, m)).map Prod.snd

/-- All units. -/
def handleAll (vaddr : Nat) (sampled : Option (OMap Nat Nat)) (us : List (List Ev)) : Option LMap :=
  us.foldlM (handleUnit vaddr sampled) { logical := [], map := [] }

/-- The source line `GetInlineStack` starts from (legacy_addr2line.cc:188-200): the entry with the greatest
address not above the given one, unless it ends a sequence or its line is 0.  `some none`: no source line;
`none`: a failed `CHECK` in `GetLogical` (functioninfo.h:162-166). -/
def lookup (m : LMap) (a : Nat) : Option (Option LineId) :=
  match OMap.floor? m.map a with
  | none => some none
  | some (_, n) =>
    if n = 0 then some none
    else
      match m.logical[n - 1]? with
      | none => none
      | some id => if id.line = 0 then some none else some (some id)

/-! ## What the map holds -/

/-- The accepted reports in order: an address with its source line, or the end of a sequence. -/
abbrev Reports := List (Nat × Option LineId)

/-- The value a stored number stands for. -/
def LMap.resolve (m : LMap) (n : Nat) : Option LineId := if n = 0 then none else m.logical[n - 1]?

/-- The last report for an address. -/
def lastAt (acc : Reports) (k : Nat) : Option (Option LineId) :=
  ((acc.filter fun e => e.1 = k).getLast?).map Prod.snd

/-- The map represents the reports: each address has the last report for it. -/
structure Rep (m : LMap) (acc : Reports) : Prop where
  sorted : OMap.Sorted m.map
  bound : ∀ e ∈ m.map, e.2 ≤ m.logical.length
  val : ∀ k, (OMap.find? m.map k).map m.resolve = lastAt acc k

theorem lastAt_append (xs ys : Reports) (k : Nat) : lastAt (xs ++ ys) k = (lastAt ys k).or (lastAt xs k) := by
  unfold lastAt
  rw [List.filter_append, List.getLast?_append]
  cases (ys.filter fun e => e.1 = k).getLast? <;> rfl

theorem lastAt_single (a k : Nat) (v : Option LineId) : lastAt [(a, v)] k = if k = a then some v else none := by
  unfold lastAt
  by_cases h : k = a
  · simp [h]
  · rw [if_neg h]
    have : ¬ a = k := fun e => h e.symm
    simp [this]

theorem lastAt_iff (acc : Reports) (k : Nat) (v : Option LineId) :
    lastAt acc k = some v ↔ ∃ pre post, acc = pre ++ (k, v) :: post ∧ ∀ e ∈ post, e.1 ≠ k := by
  induction acc with
  | nil =>
    simp [lastAt]
  | cons x acc ih =>
    have e : lastAt (x :: acc) k = (lastAt acc k).or (lastAt [x] k) := lastAt_append [x] acc k
    obtain ⟨a, w⟩ := x
    rw [e, lastAt_single]
    constructor
    · intro h
      cases hl : lastAt acc k with
      | some y =>
        rw [hl] at h
        simp only [Option.some_or, Option.some.injEq] at h
        subst h
        obtain ⟨pre, post, h1, h2⟩ := ih.1 hl
        exact ⟨(a, w) :: pre, post, by rw [h1]; rfl, h2⟩
      | none =>
        rw [hl] at h
        simp only [Option.none_or] at h
        split at h
        · rename_i hk
          cases h
          refine ⟨[], acc, by rw [hk]; rfl, ?_⟩
          intro e he hek
          unfold lastAt at hl
          rw [Option.map_eq_none_iff, List.getLast?_eq_none_iff, List.filter_eq_nil_iff] at hl
          exact hl e he (by simpa using hek)
        · cases h
    · rintro ⟨pre, post, h1, h2⟩
      cases pre with
      | nil =>
        simp only [List.nil_append, List.cons.injEq] at h1
        obtain ⟨h3, rfl⟩ := h1
        cases h3
        have : lastAt acc k = none := by
          unfold lastAt
          rw [Option.map_eq_none_iff, List.getLast?_eq_none_iff, List.filter_eq_nil_iff]
          intro e he
          simpa using h2 e he
        rw [this]
        simp
      | cons p pre =>
        simp only [List.cons_append, List.cons.injEq] at h1
        rw [ih.2 ⟨pre, post, h1.2, h2⟩]
        rfl

theorem lastAt_none (acc : Reports) (k : Nat) : lastAt acc k = none ↔ ∀ e ∈ acc, e.1 ≠ k := by
  unfold lastAt
  rw [Option.map_eq_none_iff, List.getLast?_eq_none_iff, List.filter_eq_nil_iff]
  simp

theorem rep_empty : Rep { logical := [], map := [] } [] :=
  { sorted := OMap.sorted_nil, bound := by simp, val := fun k => rfl }

theorem rep_addLine {m : LMap} {acc : Reports} (h : Rep m acc) (a : Nat) (id : LineId) :
    Rep (m.addLine a id) (acc ++ [(a, some id)]) :=
  { sorted := OMap.Sorted.upsert h.sorted _ _
    bound := by
      intro e he
      have hs : OMap.Sorted (m.addLine a id).map := OMap.Sorted.upsert h.sorted _ _
      have hf := OMap.find?_some_of_mem hs (k := e.1) (v := e.2) he
      simp only [LMap.addLine, OMap.set] at hf ⊢
      rw [OMap.find?_upsert h.sorted] at hf
      simp only [List.length_append, List.length_singleton]
      split at hf
      · rw [Option.some.injEq] at hf; omega
      · have := h.bound _ (OMap.mem_of_find?_some hf)
        simp only at this
        omega
    val := by
      intro k
      rw [lastAt_append, lastAt_single]
      simp only [LMap.addLine, OMap.set]
      rw [OMap.find?_upsert h.sorted]
      by_cases hk : k = a
      · simp only [hk, if_true, Option.map_some, Option.some_or, LMap.resolve]
        simp
      · simp only [if_neg hk, Option.none_or]
        rw [← h.val k]
        cases hf : OMap.find? m.map k with
        | none => rfl
        | some n =>
          have := h.bound _ (OMap.mem_of_find?_some hf)
          simp only at this
          simp only [Option.map_some, LMap.resolve, Option.some.injEq]
          split
          · rfl
          · rw [List.getElem?_append_left (by omega)] }

theorem rep_addEnd {m : LMap} {acc : Reports} (h : Rep m acc) (a : Nat) :
    Rep (m.addActual a 0) (acc ++ [(a, none)]) :=
  { sorted := OMap.Sorted.upsert h.sorted _ _
    bound := by
      intro e he
      have hs : OMap.Sorted (m.addActual a 0).map := OMap.Sorted.upsert h.sorted _ _
      have hf := OMap.find?_some_of_mem hs (k := e.1) (v := e.2) he
      simp only [LMap.addActual, OMap.set] at hf ⊢
      rw [OMap.find?_upsert h.sorted] at hf
      split at hf
      · rw [Option.some.injEq] at hf; omega
      · exact h.bound _ (OMap.mem_of_find?_some hf)
    val := by
      intro k
      rw [lastAt_append, lastAt_single]
      simp only [LMap.addActual, OMap.set]
      rw [OMap.find?_upsert h.sorted]
      by_cases hk : k = a
      · simp only [hk, if_true, Option.map_some, Option.some_or, LMap.resolve]
      · simp only [if_neg hk, Option.none_or]
        rw [← h.val k]
        rfl }

/-- The answer the reports give for an address: the source line of the last report at the greatest reported
address not above the given one. -/
def Ans (acc : Reports) (a : Nat) (id : LineId) : Prop :=
  ∃ k, k ≤ a ∧ (∀ e ∈ acc, e.1 ≤ a → e.1 ≤ k) ∧ lastAt acc k = some (some id)

/-- **C59, lookups** (any reports in any order): the lookup is defined, and it gives the source line of the
last report at the greatest reported address not above the given one. -/
theorem lookup_iff {m : LMap} {acc : Reports} (h : Rep m acc) (a : Nat) (id : LineId) :
    lookup m a = some (some id) ↔ id.line ≠ 0 ∧ Ans acc a id := by
  unfold Ans lookup
  cases hf : OMap.floor? m.map a with
  | none =>
    simp only [Option.some.injEq, reduceCtorEq, false_iff, not_and, not_exists]
    intro _ k hk _ hl
    rw [← h.val k] at hl
    cases hg : OMap.find? m.map k with
    | none => rw [hg] at hl; cases hl
    | some n =>
      have := (OMap.floor?_eq_none h.sorted).1 hf _ (OMap.mem_of_find?_some hg)
      simp only at this
      omega
  | some e =>
    obtain ⟨k0, n⟩ := e
    obtain ⟨h1, h2, h3⟩ := (OMap.floor?_iff h.sorted).1 hf
    simp only at h2 h3 ⊢
    have hg := OMap.find?_some_of_mem h.sorted (k := k0) (v := n) h1
    have hv := h.val k0
    rw [hg] at hv
    have hle := h.bound _ h1
    simp only at hle
    -- reported addresses are exactly the keys
    have hkey : ∀ e ∈ acc, ∃ x ∈ m.map, x.1 = e.1 := by
      intro e he
      have := h.val e.1
      cases hf' : OMap.find? m.map e.1 with
      | none =>
        rw [hf'] at this
        exact absurd rfl ((lastAt_none acc e.1).1 this.symm e he)
      | some x => exact ⟨_, OMap.mem_of_find?_some hf', rfl⟩
    constructor
    · intro hh
      split at hh
      · simp at hh
      · rename_i hn
        split at hh
        · cases hh
        · rename_i id' hid
          split at hh
          · simp at hh
          · rename_i hl
            simp only [Option.some.injEq] at hh
            subst hh
            refine ⟨hl, k0, h2, ?_, ?_⟩
            · intro e he hea
              obtain ⟨x, hx, hxe⟩ := hkey e he
              have := h3 x hx (by omega)
              omega
            · rw [← hv]
              simp only [Option.map_some, LMap.resolve, if_neg hn, hid]
    · rintro ⟨hl, k, hk, hgr, hlast⟩
      have hkk : k = k0 := by
        have hk1 : ∃ x ∈ m.map, x.1 = k := by
          obtain ⟨pre, post, hacc, _⟩ := (lastAt_iff acc k _).1 hlast
          exact hkey (k, some id) (by rw [hacc]; simp)
        obtain ⟨x, hx, hxk⟩ := hk1
        have a1 := h3 x hx (by omega)
        have hv0 : ∃ w, lastAt acc k0 = some w := ⟨_, hv.symm⟩
        obtain ⟨w, hw⟩ := hv0
        obtain ⟨pre, post, hacc, _⟩ := (lastAt_iff acc k0 _).1 hw
        have := hgr (k0, w) (by rw [hacc]; simp) h2
        simp only at this
        omega
      subst hkk
      rw [hlast] at hv
      simp only [Option.map_some, LMap.resolve, Option.some.injEq] at hv
      split at hv
      · cases hv
      · rename_i hn
        rw [if_neg hn, hv]
        simp only
        rw [if_neg hl]

/-- The lookup never fails a `CHECK`. -/
theorem lookup_defined {m : LMap} {acc : Reports} (h : Rep m acc) (a : Nat) : lookup m a ≠ none := by
  unfold lookup
  cases hf : OMap.floor? m.map a with
  | none => simp
  | some e =>
    obtain ⟨k0, n⟩ := e
    have hle := h.bound _ (OMap.floor?_mem hf).1
    simp only at hle ⊢
    split
    · simp
    · rename_i hn
      have : n - 1 < m.logical.length := by omega
      rw [List.getElem?_eq_getElem this]
      simp only
      split <;> simp

/-! ## Sequences -/

/-- A sequence of the line table: its rows in order, and the address of its end. -/
structure LSeq where
  rows : List (Nat × LineId)
  stop : Nat

/-- Address of the first row. -/
def LSeq.lo (s : LSeq) : Nat := (s.rows.head?.map Prod.fst).getD s.stop

/-- The standard's requirement that addresses only increase within a sequence; and the sequence covers at
least one address. -/
structure LSeq.Ok (s : LSeq) : Prop where
  sorted : s.rows.Pairwise fun a b => a.1 ≤ b.1
  stop : ∀ r ∈ s.rows, r.1 ≤ s.stop
  pos : s.lo < s.stop

/-- The row of the sequence that describes an address: the last one not above it, the next row (or the end)
being above it. -/
def LSeq.Covers (s : LSeq) (a : Nat) (id : LineId) : Prop :=
  ∃ pre r post, s.rows = pre ++ (r, id) :: post ∧ r ≤ a ∧ (∀ x ∈ post, a < x.1) ∧ a < s.stop

/-- What a sequence reports. -/
def LSeq.reports (s : LSeq) : Reports := s.rows.map (fun r => (r.1, some r.2)) ++ [(s.stop, none)]

/-- Two sequences whose address ranges do not overlap. -/
def Disj (s t : LSeq) : Prop := s.stop ≤ t.lo ∨ t.stop ≤ s.lo

/-- The row that describes an address, among sequences in the order they are read, unless it is lost: the end
of a sequence read later, exactly where `s` starts, replaces what `s` says about its first address. -/
def Found (ss : List LSeq) (a : Nat) (id : LineId) : Prop :=
  ∃ pre s post, ss = pre ++ s :: post ∧ s.Covers a id ∧
    ∀ t ∈ post, t.stop = s.lo → ∃ r ∈ s.rows, s.lo < r.1 ∧ r.1 ≤ a

theorem LSeq.Ok.rows_ne {s : LSeq} (h : s.Ok) : s.rows ≠ [] := by
  intro hn
  have := h.pos
  unfold LSeq.lo at this
  rw [hn] at this
  simp at this

theorem LSeq.Ok.lo_le {s : LSeq} (h : s.Ok) : ∀ r ∈ s.rows, s.lo ≤ r.1 := by
  intro r hr
  unfold LSeq.lo
  cases hrows : s.rows with
  | nil => rw [hrows] at hr; cases hr
  | cons x xs =>
    have := h.sorted
    rw [hrows] at this hr
    simp only [List.head?_cons, Option.map_some, Option.getD_some]
    rcases List.mem_cons.1 hr with rfl | hr
    · exact Nat.le_refl _
    · exact (List.pairwise_cons.1 this).1 r hr

theorem LSeq.Ok.report_bounds {s : LSeq} (h : s.Ok) : ∀ e ∈ s.reports, s.lo ≤ e.1 ∧ e.1 ≤ s.stop := by
  intro e he
  unfold LSeq.reports at he
  rcases List.mem_append.1 he with he | he
  · obtain ⟨r, hr, rfl⟩ := List.mem_map.1 he
    exact ⟨h.lo_le r hr, h.stop r hr⟩
  · simp only [List.mem_singleton] at he
    subst he
    exact ⟨Nat.le_of_lt h.pos, Nat.le_refl _⟩

/-- An address inside the range of a sequence is covered by one of its rows. -/
theorem LSeq.Ok.covered {s : LSeq} (h : s.Ok) {a : Nat} (h1 : s.lo ≤ a) (h2 : a < s.stop) :
    ∃ id, s.Covers a id := by
  have key : ∀ rows : List (Nat × LineId), rows.Pairwise (fun a b => a.1 ≤ b.1) →
      (∃ r ∈ rows, r.1 ≤ a) → ∃ pre r id post, rows = pre ++ (r, id) :: post ∧ r ≤ a ∧ ∀ x ∈ post, a < x.1 := by
    intro rows
    induction rows with
    | nil => rintro _ ⟨r, hr, _⟩; cases hr
    | cons x xs ih =>
      intro hs hx
      by_cases hex : ∃ r ∈ xs, r.1 ≤ a
      · obtain ⟨pre, r, id, post, e, h3, h4⟩ := ih (List.pairwise_cons.1 hs).2 hex
        exact ⟨x :: pre, r, id, post, by rw [e]; rfl, h3, h4⟩
      · obtain ⟨r, hr, hra⟩ := hx
        rcases List.mem_cons.1 hr with rfl | hr
        · obtain ⟨k, id⟩ := r
          refine ⟨[], k, id, xs, rfl, hra, ?_⟩
          intro y hy
          by_contra hc
          exact hex ⟨y, hy, by omega⟩
        · exact absurd ⟨r, hr, hra⟩ hex
  have hex : ∃ r ∈ s.rows, r.1 ≤ a := by
    have hne := h.rows_ne
    cases hrows : s.rows with
    | nil => exact absurd hrows hne
    | cons x xs =>
      refine ⟨x, List.mem_cons_self, ?_⟩
      unfold LSeq.lo at h1
      rw [hrows] at h1
      simpa using h1
  obtain ⟨pre, r, id, post, e, h3, h4⟩ := key s.rows h.sorted hex
  exact ⟨id, pre, r, post, e, h3, h4, h2⟩

theorem LSeq.Covers.bounds {s : LSeq} (h : s.Ok) {a : Nat} {id : LineId} (hc : s.Covers a id) :
    s.lo ≤ a ∧ a < s.stop := by
  obtain ⟨pre, r, post, e, h1, _, h3⟩ := hc
  have := h.lo_le (r, id) (by rw [e]; simp)
  simp only at this
  omega

theorem disj_sym {ss : List LSeq} (hap : ss.Pairwise Disj) :
    ∀ s ∈ ss, ∀ t ∈ ss, s ≠ t → s.stop ≤ t.lo ∨ t.stop ≤ s.lo := by
  induction ss with
  | nil => intro s hs; cases hs
  | cons x xs ih =>
    obtain ⟨h1, h2⟩ := List.pairwise_cons.1 hap
    intro s hs t ht hne
    rcases List.mem_cons.1 hs with hsx | hsx
    · rcases List.mem_cons.1 ht with htx | htx
      · exact absurd (hsx.trans htx.symm) hne
      · have := h1 t htx
        rw [← hsx] at this
        exact this
    · rcases List.mem_cons.1 ht with htx | htx
      · have := h1 s hsx
        rw [← htx] at this
        exact this.symm
      · exact ih h2 s hsx t htx hne

theorem flatMap_split {α β : Type} (f : α → List β) (l : List α) : ∀ (pre post : List β) (x : β),
    l.flatMap f = pre ++ x :: post → ∃ l1 y l2 c1 c2, l = l1 ++ y :: l2 ∧ f y = c1 ++ x :: c2 ∧
      post = c2 ++ l2.flatMap f := by
  induction l with
  | nil =>
    intro pre post x h
    simp at h
  | cons t l ih =>
    intro pre post x h
    rw [List.flatMap_cons] at h
    rcases List.append_eq_append_iff.1 h with ⟨c, hc1, hc2⟩ | ⟨c, hc1, hc2⟩
    · obtain ⟨l1, y, l2, c1, c2, e1, e2, e3⟩ := ih c post x hc2
      exact ⟨t :: l1, y, l2, c1, c2, by rw [e1]; rfl, e2, e3⟩
    · cases c with
      | nil =>
        simp only [List.nil_append] at hc2
        obtain ⟨l1, y, l2, c1, c2, e1, e2, e3⟩ := ih [] post x (by rw [← hc2]; rfl)
        exact ⟨t :: l1, y, l2, c1, c2, by rw [e1]; rfl, e2, e3⟩
      | cons y c =>
        simp only [List.cons_append, List.cons.injEq] at hc2
        obtain ⟨rfl, hpost'⟩ := hc2
        exact ⟨[], t, l, pre, c, rfl, hc1, hpost'⟩

/-- The row found for an address is the last report at the greatest address not above it. -/
theorem found_last {ss : List LSeq} (hok : ∀ s ∈ ss, s.Ok) (hap : ss.Pairwise Disj) {a : Nat} {id : LineId}
    (h : Found ss a id) : Ans (ss.flatMap LSeq.reports) a id := by
  obtain ⟨sp, s, sq, hss, hc, hfirst⟩ := h
  obtain ⟨p1, r, p2, hrows, hra, hp2, hst⟩ := hc
  have hs : s ∈ ss := by rw [hss]; simp
  have hlo := (hok s hs).lo_le (r, id) (by rw [hrows]; simp)
  simp only at hlo
  have hrep : s.reports = (p1.map fun r => (r.1, some r.2)) ++ (r, some id) ::
      ((p2.map fun r => (r.1, some r.2)) ++ [(s.stop, none)]) := by
    unfold LSeq.reports
    rw [hrows]
    simp
  have hsrt := (hok s hs).sorted
  rw [hrows] at hsrt
  refine ⟨r, hra, ?_, ?_⟩
  · intro e he hea
    obtain ⟨t, ht, het⟩ := List.mem_flatMap.1 he
    have hbt := (hok t ht).report_bounds e het
    by_cases hts : t = s
    · subst hts
      rw [hrep] at het
      rcases List.mem_append.1 het with h | h
      · obtain ⟨x, hx, rfl⟩ := List.mem_map.1 h
        exact (List.pairwise_append.1 hsrt).2.2 x hx (r, id) (by simp)
      · rcases List.mem_cons.1 h with rfl | h
        · exact Nat.le_refl _
        · rcases List.mem_append.1 h with h | h
          · obtain ⟨x, hx, rfl⟩ := List.mem_map.1 h
            have := hp2 x hx
            simp only at hea
            omega
          · simp only [List.mem_singleton] at h
            subst h
            simp only at hea
            omega
    · have := disj_sym hap t ht s hs hts
      omega
  · rw [lastAt_iff]
    refine ⟨sp.flatMap LSeq.reports ++ p1.map (fun r => (r.1, some r.2)),
      (p2.map fun r => (r.1, some r.2)) ++ [(s.stop, none)] ++ sq.flatMap LSeq.reports, ?_, ?_⟩
    · rw [hss, List.flatMap_append, List.flatMap_cons, hrep]
      simp
    · intro e he
      rcases List.mem_append.1 he with he | he
      · rcases List.mem_append.1 he with he | he
        · obtain ⟨x, hx, rfl⟩ := List.mem_map.1 he
          have := hp2 x hx
          simp only
          omega
        · simp only [List.mem_singleton] at he
          subst he
          simp only
          omega
      · obtain ⟨t, ht, het⟩ := List.mem_flatMap.1 he
        have htm : t ∈ ss := by rw [hss]; simp [ht]
        have hbt := (hok t htm).report_bounds e het
        rw [hss] at hap
        have hst' := (List.pairwise_cons.1 (List.pairwise_append.1 hap).2.1).1 t ht
        unfold Disj at hst'
        intro her
        obtain ⟨x, hx, hx1, hx2⟩ := hfirst t ht (by omega)
        rw [hrows] at hx
        rcases List.mem_append.1 hx with hx | hx
        · have := (List.pairwise_append.1 hsrt).2.2 x hx (r, id) (by simp)
          simp only at this
          omega
        · rcases List.mem_cons.1 hx with rfl | hx
          · simp only at hx1 hx2
            omega
          · have := hp2 x hx
            omega

/-- The answer for the reports of sequences is the row found. -/
theorem ans_sequences (ss : List LSeq) (hok : ∀ s ∈ ss, s.Ok) (hap : ss.Pairwise Disj) (a : Nat)
    (id : LineId) : Ans (ss.flatMap LSeq.reports) a id ↔ Found ss a id := by
  constructor
  · rintro ⟨k, hk, hgr, hlast⟩
    obtain ⟨pre, post, hacc, hpost⟩ := (lastAt_iff _ k _).1 hlast
    obtain ⟨l1, s, l2, c1, c2, hss, hc, hp⟩ := flatMap_split LSeq.reports ss pre post _ hacc
    have hs : s ∈ ss := by rw [hss]; simp
    have hb := (hok s hs).report_bounds (k, some id) (by rw [hc]; simp)
    simp only at hb
    -- the row and what follows it
    have hsplit : ∃ p1 p2, s.rows = p1 ++ (k, id) :: p2 ∧
        c2 = (p2.map fun r => (r.1, some r.2)) ++ [(s.stop, none)] := by
      unfold LSeq.reports at hc
      rcases List.append_eq_append_iff.1 hc with ⟨c, h1, h2⟩ | ⟨c, h1, h2⟩
      · cases c with
        | nil => simp at h2
        | cons y c => simp at h2
      · cases c with
        | nil => simp at h2
        | cons y c =>
          simp only [List.cons_append, List.cons.injEq] at h2
          obtain ⟨rfl, h2⟩ := h2
          obtain ⟨q1, q2, e1, e2, e3⟩ := List.map_eq_append_iff.1 h1
          obtain ⟨z, q3, e4, e5, e6⟩ := List.map_eq_cons_iff.1 e3
          simp only [Prod.mk.injEq, Option.some.injEq] at e5
          refine ⟨q1, q3, ?_, by rw [h2, e6]⟩
          rw [e1, e4]
          congr 2
          exact Prod.ext e5.1 e5.2
    obtain ⟨p1, p2, hrows, hc2⟩ := hsplit
    refine ⟨l1, s, l2, hss, ⟨p1, k, p2, hrows, hk, ?_, ?_⟩, ?_⟩
    · intro x hx
      by_contra hle
      have hsrt := (hok s hs).sorted
      rw [hrows] at hsrt
      have h1 := (List.pairwise_cons.1 (List.pairwise_append.1 hsrt).2.1).1 x hx
      have h2 := hgr (x.1, some x.2) (List.mem_flatMap.2 ⟨s, hs, by
        unfold LSeq.reports
        rw [hrows]
        simp only [List.map_append, List.map_cons, List.mem_append, List.mem_cons, List.mem_map]
        exact Or.inl (Or.inr (Or.inr ⟨x, hx, rfl⟩))⟩) (by simp only; omega)
      have h3 := hpost (x.1, some x.2) (by
        rw [hp, hc2]
        simp only [List.mem_append, List.mem_map]
        exact Or.inl (Or.inl ⟨x, hx, rfl⟩))
      simp only at h1 h2 h3
      omega
    · by_contra hle
      have h2 := hgr (s.stop, none) (List.mem_flatMap.2 ⟨s, hs, by unfold LSeq.reports; simp⟩) (by simp only; omega)
      have h3 := hpost (s.stop, none) (by rw [hp, hc2]; simp)
      simp only at h2 h3
      omega
    · intro t ht hts
      have h3 := hpost (t.stop, none) (by
        rw [hp]
        exact List.mem_append_right _ (List.mem_flatMap.2 ⟨t, ht, by unfold LSeq.reports; simp⟩))
      simp only at h3
      exact ⟨(k, id), by rw [hrows]; simp, by simp only; omega, hk⟩
  · exact found_last hok hap

/-- If moreover no sequence ends where one read earlier starts, then what is found are just the covering rows. -/
theorem found_iff (ss : List LSeq) (h : ss.Pairwise fun s t => t.stop ≠ s.lo) (a : Nat) (id : LineId) :
    Found ss a id ↔ ∃ s ∈ ss, s.Covers a id := by
  constructor
  · rintro ⟨pre, s, post, hss, hc, _⟩
    exact ⟨s, by rw [hss]; simp, hc⟩
  · rintro ⟨s, hs, hc⟩
    obtain ⟨pre, post, hss⟩ := List.append_of_mem hs
    refine ⟨pre, s, post, hss, hc, ?_⟩
    intro t ht hts
    rw [hss] at h
    exact absurd hts ((List.pairwise_cons.1 (List.pairwise_append.1 h).2.1).1 t ht)

end Verif.LineMap
