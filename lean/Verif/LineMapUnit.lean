import Verif.LineMap

/-! # C59: from the bytes of `.debug_line` to the source line of an address -/
namespace Verif.LineMap
open Verif Verif.DwarfLine Verif.ByteReader

/-! ## Specification -/

/-- The rows of a sequence of the line program and the registers at its end. -/
def rowsOf (h : Hdr) : List Instr → Regs → List Regs × Regs
  | [], r => ([], r)
  | i :: is, r =>
    let rest := rowsOf h is (i.exec h r).1
    ((i.exec h r).2.filterMap (fun o => match o with | .row r false => some r | _ => none) ++ rest.1, rest.2)

/-- Directory and name of the file with the given number in the header of a unit before DWARF 5: files are
numbered from 1; directory 0 is the compilation directory, here the empty name. -/
def fileOf (u : Unit4) (n : Nat) : Option (Name × Name) :=
  if n = 0 then none
  else u.files[n - 1]?.bind fun f =>
    if f.dir = 0 then some ([], f.name) else (u.dirs[f.dir - 1]?).map fun d => (d, f.name)

/-- A row of the line table and the source line it names; all values fit the handler's parameters. -/
def IsRow (u : Unit4) (r : Regs) (x : Nat × LineId) : Prop :=
  x.1 = r.address ∧ r.address < 2 ^ 64 ∧ fileOf u r.file = some (x.2.dir, x.2.file) ∧ r.file < 2 ^ 32 ∧
  r.line = x.2.line ∧ x.2.line < 2 ^ 32 ∧ r.discr = x.2.discr ∧ x.2.discr < 2 ^ 32

/-- The instructions describe the sequence. -/
def IsSeq (e : Endian) (w : Nat) (u : Unit4) (is : List Instr) (s : LSeq) : Prop :=
  List.Forall₂ (IsRow u) (rowsOf (u.hdr e w) is Regs.init).1 s.rows ∧
  s.stop = (rowsOf (u.hdr e w) is Regs.init).2.address ∧ s.stop < 2 ^ 64

/-- The unit defines all files in its header, with directories in range. -/
def Closed (u : Unit4) : Prop :=
  (∀ f ∈ u.files, f.dir ≤ u.dirs.length) ∧
  ∀ is ∈ u.prog, ∀ i ∈ is, ∀ name dir mtime length, i ≠ .defineFile name dir mtime length

/-- A sequence of deleted code: all its addresses, as the reader reports them, are outside the program. -/
def Dead (e : Endian) (w : Nat) (lo hi : Nat) (u : Unit4) (is : List Instr) : Prop :=
  (∀ r ∈ (rowsOf (u.hdr e w) is Regs.init).1, r.address % 2 ^ 64 < lo ∨ hi ≤ r.address % 2 ^ 64) ∧
  ((rowsOf (u.hdr e w) is Regs.init).2.address % 2 ^ 64 < lo ∨
    hi ≤ (rowsOf (u.hdr e w) is Regs.init).2.address % 2 ^ 64)

/-! ## Proof -/

/-- The handler's tables after the header. -/
def tabOf (u : Unit4) : Tab :=
  { dirs := [] :: u.dirs, files := (0, []) :: u.files.map fun f => (f.dir, f.name) }

theorem foldlM_append' {α β : Type} (f : β → α → Option β) (xs ys : List α) (b : β) :
    (xs ++ ys).foldlM f b = (xs.foldlM f b).bind fun b' => ys.foldlM f b' := by
  rw [List.foldlM_append]
  rfl

theorem dirEvs_handle (vaddr : Nat) (m : LMap) (fs : List (Nat × Name)) (ds : List Name) : ∀ (i : Nat) (done : List Name),
    done.length = i →
    (dirEvs i ds).foldlM (handle vaddr none) ({ dirs := done, files := fs }, m) =
      some ({ dirs := done ++ ds, files := fs }, m) := by
  induction ds with
  | nil => intro i done _; simp [dirEvs]
  | cons d ds ih =>
    intro i done hi
    simp only [dirEvs, List.foldlM_cons, handle, hi, if_true]
    have := ih (i + 1) (done ++ [d]) (by simp [hi])
    simp only [List.append_assoc, List.singleton_append] at this
    exact this

theorem fileEvs_handle (vaddr : Nat) (m : LMap) (ds : List Name) (fs : List FileEntry) :
    ∀ (i : Nat) (done : List (Nat × Name)), done.length = i → (∀ f ∈ fs, f.dir < ds.length) →
    (fileEvs i fs).foldlM (handle vaddr none) ({ dirs := ds, files := done }, m) =
      some ({ dirs := ds, files := done ++ fs.map fun f => (f.dir, f.name) }, m) := by
  induction fs with
  | nil => intro i done _ _; simp [fileEvs]
  | cons f fs ih =>
    intro i done hi hd
    have h1 := hd f List.mem_cons_self
    simp only [fileEvs, List.foldlM_cons, handle, h1, if_true]
    have hc : ((i : Int) = (done.length : Int) ∨ (i : Int) = -1) := Or.inl (by rw [hi])
    rw [if_pos hc]
    have := ih (i + 1) (done ++ [(f.dir, f.name)]) (by simp [hi])
      (fun x hx => hd x (List.mem_cons_of_mem _ hx))
    simp only [List.append_assoc, List.singleton_append] at this
    exact this

theorem header_handle (vaddr : Nat) (m : LMap) (u : Unit4) (hu : Closed u) :
    (dirEvs 1 u.dirs ++ fileEvs 1 u.files).foldlM (handle vaddr none) (Tab.init, m) = some (tabOf u, m) := by
  rw [foldlM_append']
  have h1 := dirEvs_handle vaddr m [(0, [])] u.dirs 1 [[]] rfl
  rw [show (Tab.init : Tab) = { dirs := [[]], files := [(0, [])] } from rfl, h1]
  simp only [Option.bind_some]
  have h2 := fileEvs_handle vaddr m ([] :: u.dirs) u.files 1 [(0, [])] rfl
    (fun f hf => by have := hu.1 f hf; simp only [List.length_cons]; omega)
  simp only [List.singleton_append] at h2 ⊢
  rw [h2]
  rfl

/-- What the handler stores for an output of the line program. -/
def reportOf (vaddr : Nat) (t : Tab) : Out → Reports
  | .row r e =>
    if r.address % 2 ^ 64 < vaddr then []
    else if e then [(r.address % 2 ^ 64, none)]
    else
      match t.files[r.file % 2 ^ 32]? with
      | none => []
      | some (di, name) =>
        match t.dirs[di]? with
        | none => []
        | some dir => [(r.address % 2 ^ 64, some { dir := dir, file := name, line := (r.line % 2 ^ 32).toNat, discr := r.discr % 2 ^ 32 })]
  | .file .. => []

theorem rows_handle (vaddr : Nat) (t : Tab) (os : List Out)
    (hos : ∀ o ∈ os, ∃ r e, o = .row r e) : ∀ (m : LMap) (acc : Reports), Rep m acc →
    ∃ m', (os.map Out.narrow).foldlM (handle vaddr none) (t, m) = some (t, m') ∧
      Rep m' (acc ++ os.flatMap (reportOf vaddr t)) := by
  induction os with
  | nil => intro m acc h; exact ⟨m, rfl, by simpa using h⟩
  | cons o os ih =>
    intro m acc h
    obtain ⟨r, e, rfl⟩ := hos o List.mem_cons_self
    have ih' := ih (fun x hx => hos x (List.mem_cons_of_mem _ hx))
    have step : ∃ m1, handle vaddr none (t, m) (Out.row r e).narrow = some (t, m1) ∧
        Rep m1 (acc ++ reportOf vaddr t (.row r e)) := by
      simp only [Out.narrow, handle, reportOf, shouldAdd]
      by_cases hv : r.address % 2 ^ 64 < vaddr
      · simp only [if_pos hv, Bool.false_eq_true, if_false, List.append_nil]
        exact ⟨m, rfl, h⟩
      · simp only [if_neg hv, if_true]
        cases e with
        | true =>
          simp only [if_true]
          exact ⟨_, rfl, rep_addEnd h _⟩
        | false =>
          simp only [Bool.false_eq_true, if_false]
          cases t.files[r.file % 2 ^ 32]? with
          | none => exact ⟨m, rfl, by simpa using h⟩
          | some p =>
            obtain ⟨di, name⟩ := p
            simp only
            cases t.dirs[di]? with
            | none => exact ⟨m, rfl, by simpa using h⟩
            | some dir =>
              simp only
              exact ⟨_, rfl, rep_addLine h _ _⟩
    obtain ⟨m1, h1, h2⟩ := step
    obtain ⟨m', h3, h4⟩ := ih' m1 _ h2
    refine ⟨m', ?_, ?_⟩
    · rw [List.map_cons, List.foldlM_cons, h1]
      exact h3
    · rw [List.flatMap_cons, ← List.append_assoc]
      exact h4

theorem seqMeaning_rows (h : Hdr) (is : List Instr)
    (hno : ∀ i ∈ is, ∀ name dir mtime length, i ≠ .defineFile name dir mtime length) : ∀ r : Regs,
    seqMeaning h is r = ((rowsOf h is r).1.map fun r => Out.row r false) ++ [.row (rowsOf h is r).2 true] := by
  induction is with
  | nil => intro r; rfl
  | cons i is ih =>
    intro r
    have := ih (fun x hx => hno x (List.mem_cons_of_mem _ hx)) (i.exec h r).1
    simp only [seqMeaning, rowsOf, this, List.map_append, List.append_assoc]
    congr 1
    have hi := hno i List.mem_cons_self
    cases i <;> simp only [Instr.exec, List.filterMap_nil, List.filterMap_cons, List.map_nil, List.map_cons]
    · rename_i name dir mtime length
      exact absurd rfl (hi name dir mtime length)

/-- The table agrees with the specification of file numbers. -/
theorem fileOf_tab {u : Unit4} {n : Nat} {d f : Name} (h : fileOf u n = some (d, f)) :
    ∃ di, (tabOf u).files[n]? = some (di, f) ∧ (tabOf u).dirs[di]? = some d := by
  unfold fileOf at h
  split at h
  · cases h
  · rename_i hn
    obtain ⟨k, rfl⟩ : ∃ k, n = k + 1 := ⟨n - 1, by omega⟩
    simp only [Nat.add_sub_cancel] at h
    cases hf : u.files[k]? with
    | none => rw [hf] at h; cases h
    | some fe =>
      rw [hf] at h
      simp only [Option.bind_some] at h
      refine ⟨fe.dir, ?_⟩
      simp only [tabOf, List.getElem?_cons_succ, List.getElem?_map, hf, Option.map_some]
      split at h
      · rename_i hd
        simp only [Option.some.injEq, Prod.mk.injEq] at h
        rw [hd, ← h.1, h.2]
        exact ⟨rfl, rfl⟩
      · rename_i hd
        obtain ⟨j, hj⟩ : ∃ j, fe.dir = j + 1 := ⟨fe.dir - 1, by omega⟩
        rw [hj, Nat.add_sub_cancel] at h
        cases hdd : u.dirs[j]? with
        | none => rw [hdd] at h; cases h
        | some dn =>
          rw [hdd] at h
          simp only [Option.map_some, Option.some.injEq, Prod.mk.injEq] at h
          rw [hj, List.getElem?_cons_succ, hdd, h.1, h.2]
          exact ⟨rfl, rfl⟩

/-- A live row is reported as it is. -/
theorem reportOf_row {vaddr : Nat} {u : Unit4} {r : Regs} {x : Nat × LineId} (h : IsRow u r x)
    (hv : vaddr ≤ x.1) : reportOf vaddr (tabOf u) (.row r false) = [(x.1, some x.2)] := by
  obtain ⟨a1, a2, a3, a4, a5, a6, a7, a8⟩ := h
  obtain ⟨di, b1, b2⟩ := fileOf_tab a3
  have e1 : r.address % 2 ^ 64 = x.1 := by rw [Nat.mod_eq_of_lt a2, a1]
  have e2 : r.file % 2 ^ 32 = r.file := Nat.mod_eq_of_lt a4
  have e3 : (r.line % 2 ^ 32).toNat = x.2.line := by
    rw [a5]
    have : ((x.2.line : Int) % 2 ^ 32) = x.2.line := Int.emod_eq_of_lt (by omega) (by omega)
    rw [this]
    rfl
  have e4 : r.discr % 2 ^ 32 = x.2.discr := by rw [a7]; exact Nat.mod_eq_of_lt a8
  have hlt : ¬ x.1 < vaddr := by omega
  simp only [reportOf, e1, e2, e3, e4, if_neg hlt, Bool.false_eq_true, if_false, b1, b2]

/-- Reports inside the program. -/
def inside (hi : Nat) (acc : Reports) : Reports := acc.filter fun e => e.1 < hi

/-- The reports of one sequence: those of the specification if it is live, none if it is dead. -/
theorem reports_seq {e : Endian} {w vaddr hi : Nat} {u : Unit4} {is : List Instr}
    (hno : ∀ i ∈ is, ∀ name dir mtime length, i ≠ .defineFile name dir mtime length) (live : Option LSeq)
    (hlive : ∀ s, live = some s → IsSeq e w u is s ∧ s.Ok ∧ vaddr ≤ s.lo ∧ s.stop < hi)
    (hdead : live = none → Dead e w vaddr hi u is) :
    inside hi ((seqMeaning (u.hdr e w) is Regs.init).flatMap (reportOf vaddr (tabOf u))) =
      live.toList.flatMap LSeq.reports := by
  rw [seqMeaning_rows _ _ hno]
  cases live with
  | none =>
    obtain ⟨h1, h2⟩ := hdead rfl
    simp only [Option.toList_none, List.flatMap_nil]
    unfold inside
    rw [List.filter_eq_nil_iff]
    intro x hx
    rw [List.mem_flatMap] at hx
    obtain ⟨o, ho, hxo⟩ := hx
    have key : ∀ r b, (r.address % 2 ^ 64 < vaddr ∨ hi ≤ r.address % 2 ^ 64) →
        ∀ x ∈ reportOf vaddr (tabOf u) (.row r b), hi ≤ x.1 := by
      intro r b hr x hx
      simp only [reportOf] at hx
      split at hx
      · cases hx
      · rename_i hnv
        have hge : hi ≤ r.address % 2 ^ 64 := by
          rcases hr with h | h
          · exact absurd h hnv
          · exact h
        split at hx
        · simp only [List.mem_singleton] at hx
          rw [hx]; exact hge
        · split at hx
          · cases hx
          · split at hx
            · cases hx
            · simp only [List.mem_singleton] at hx
              rw [hx]; exact hge
    have : hi ≤ x.1 := by
      rcases List.mem_append.1 ho with ho | ho
      · obtain ⟨r, hr, rfl⟩ := List.mem_map.1 ho
        exact key r false (h1 r hr) x hxo
      · simp only [List.mem_singleton] at ho
        subst ho
        exact key _ true h2 x hxo
    simp only [decide_eq_true_eq]
    omega
  | some s =>
    obtain ⟨⟨h1, h2, h3⟩, hok, hv, hhi⟩ := hlive s rfl
    have hrows : ∀ (rs : List Regs) (xs : List (Nat × LineId)), List.Forall₂ (IsRow u) rs xs →
        (∀ x ∈ xs, vaddr ≤ x.1) → (rs.map fun r => Out.row r false).flatMap (reportOf vaddr (tabOf u)) =
          xs.map fun x => (x.1, some x.2) := by
      intro rs xs hf
      induction hf with
      | nil => intro _; rfl
      | cons hx _ ih =>
        intro hge
        rw [List.map_cons, List.flatMap_cons, reportOf_row hx (hge _ List.mem_cons_self),
          ih (fun x hx => hge x (List.mem_cons_of_mem _ hx))]
        rfl
    rw [List.flatMap_append, hrows _ _ h1 (fun x hx => Nat.le_trans hv (hok.lo_le x hx))]
    have hend : [Out.row (rowsOf (u.hdr e w) is Regs.init).2 true].flatMap (reportOf vaddr (tabOf u)) =
        [(s.stop, none)] := by
      have hpos := hok.pos
      have : ¬ s.stop < vaddr := by omega
      simp only [List.flatMap_cons, List.flatMap_nil, List.append_nil, reportOf, ← h2,
        Nat.mod_eq_of_lt h3, if_neg this, if_true]
    rw [hend]
    simp only [Option.toList_some, List.flatMap_cons, List.flatMap_nil, List.append_nil]
    unfold inside
    rw [List.filter_eq_self.2]
    · rfl
    · intro x hx
      have := (hok.report_bounds x hx).2
      simp only [decide_eq_true_eq]
      omega

/-- Reports above the address do not matter. -/
theorem ans_inside (acc : Reports) (hi a : Nat) (ha : a < hi) (id : LineId) :
    Ans (inside hi acc) a id ↔ Ans acc a id := by
  have hl : ∀ k, k < hi → lastAt (inside hi acc) k = lastAt acc k := by
    intro k hk
    unfold lastAt inside
    rw [List.filter_filter]
    congr 2
    apply List.filter_congr
    intro x _
    by_cases hx : x.1 = k
    · simp [hx, hk]
    · simp [hx]
  unfold Ans
  constructor
  · rintro ⟨k, h1, h2, h3⟩
    refine ⟨k, h1, ?_, by rw [← hl k (by omega)]; exact h3⟩
    intro e he hea
    apply h2 e _ hea
    unfold inside
    rw [List.mem_filter]
    exact ⟨he, by simp only [decide_eq_true_eq]; omega⟩
  · rintro ⟨k, h1, h2, h3⟩
    refine ⟨k, h1, ?_, by rw [hl k (by omega)]; exact h3⟩
    intro e he hea
    exact h2 e ((List.mem_filter.1 he).1) hea

/-- A unit with, for each sequence of its program, the sequence it describes or nothing if its code was
deleted. -/
structure Described (e : Endian) (w vaddr hi : Nat) (u : Unit4) (lives : List (Option LSeq)) : Prop where
  ok : u.Ok w
  closed : Closed u
  seqs : List.Forall₂ (fun is live => (∀ s, live = some s → IsSeq e w u is s ∧ s.Ok ∧ vaddr ≤ s.lo ∧ s.stop < hi) ∧
    (live = none → Dead e w vaddr hi u is)) u.prog lives

theorem unit_handled {e : Endian} {w vaddr hi : Nat} {u : Unit4} {lives : List (Option LSeq)}
    (h : Described e w vaddr hi u lives) {m : LMap} {acc : Reports} (hm : Rep m acc) :
    ∃ m' acc', (u.events e w).foldlM (handle vaddr none) (Tab.init, m) = some (tabOf u, m') ∧ Rep m' (acc ++ acc') ∧
      inside hi acc' = (lives.flatMap Option.toList).flatMap LSeq.reports := by
  unfold Unit4.events
  rw [foldlM_append', header_handle vaddr m u h.closed]
  simp only [Option.bind_some]
  have hrow : ∀ o ∈ meaning (u.hdr e w) u.prog, ∃ r b, o = Out.row r b := by
    intro o ho
    unfold meaning at ho
    obtain ⟨is, his, ho⟩ := List.mem_flatMap.1 ho
    rw [seqMeaning_rows _ _ (h.closed.2 is his)] at ho
    rcases List.mem_append.1 ho with ho | ho
    · obtain ⟨r, _, rfl⟩ := List.mem_map.1 ho
      exact ⟨_, _, rfl⟩
    · simp only [List.mem_singleton] at ho
      exact ⟨_, _, ho⟩
  obtain ⟨m', h1, h2⟩ := rows_handle vaddr (tabOf u) _ hrow m acc hm
  rw [h1]
  refine ⟨m', _, rfl, h2, ?_⟩
  have key : ∀ (p : List (List Instr)) (ls : List (Option LSeq)),
      (∀ is ∈ p, ∀ i ∈ is, ∀ name dir mtime length, i ≠ .defineFile name dir mtime length) →
      List.Forall₂ (fun is live => (∀ s, live = some s → IsSeq e w u is s ∧ s.Ok ∧ vaddr ≤ s.lo ∧ s.stop < hi) ∧
        (live = none → Dead e w vaddr hi u is)) p ls →
      inside hi ((meaning (u.hdr e w) p).flatMap (reportOf vaddr (tabOf u))) =
        (ls.flatMap Option.toList).flatMap LSeq.reports := by
    intro p ls hno hf
    induction hf with
    | nil => rfl
    | @cons is live p ls hx _ ih =>
      have h1 := reports_seq (hno is List.mem_cons_self) live hx.1 hx.2
      have h2 := ih (fun x hx => hno x (List.mem_cons_of_mem _ hx))
      unfold inside at h1 h2 ⊢
      unfold meaning at h2 ⊢
      rw [List.flatMap_cons, List.flatMap_append, List.filter_append, h1, h2, List.flatMap_cons,
        List.flatMap_append]
  exact key u.prog lives h.closed.2 h.seqs

theorem handleUnit_spec {e : Endian} {w vaddr hi : Nat} {u : Unit4} {lives : List (Option LSeq)}
    (h : Described e w vaddr hi u lives) {m : LMap} {acc : Reports} (hm : Rep m acc) :
    ∃ m' acc', handleUnit vaddr none m (u.events e w) = some m' ∧ Rep m' (acc ++ acc') ∧
      inside hi acc' = (lives.flatMap Option.toList).flatMap LSeq.reports := by
  obtain ⟨m', acc', h1, h2⟩ := unit_handled h hm
  exact ⟨m', acc', by unfold handleUnit; rw [h1]; rfl, h2⟩

/-- **C59.** For every `.debug_line` section of units (before DWARF 5) whose live sequences do not overlap, the
section is read, and the source line found for an address is the one of the row of the line table that covers
it: the last row at or below the address in the sequence that contains it.  No line is found for an address
outside all sequences, or covered by a row with line 0, or lost because a sequence read later ends exactly where
the sequence of the address starts (`Found`).  Sequences of deleted code (addresses below the first load segment
`vaddr`, or at least `hi`, for instance all ones) do not disturb. -/
theorem address_to_line (e : Endian) (w vaddr hi : Nat) (us : List (Unit4 × List Nat × List (Option LSeq)))
    (hus : ∀ u ∈ us, Described e w vaddr hi u.1 u.2.2 ∧ u.1.Enc e w u.2.1)
    (hap : ((us.flatMap fun u => u.2.2).flatMap Option.toList).Pairwise Disj) :
    ∃ evs m, readSection e w ((us.flatMap (·.2.1)).length + 1) (us.flatMap (·.2.1)) = some evs ∧
      handleAll vaddr none evs = some m ∧ ∀ a, a < hi →
        lookup m a ≠ none ∧
        ∀ id, lookup m a = some (some id) ↔
          id.line ≠ 0 ∧ Found ((us.flatMap fun u => u.2.2).flatMap Option.toList) a id := by
  have hsec := section_decoded e w (us.map fun u => (u.1, u.2.1)) (by
    intro u hu
    obtain ⟨x, hx, rfl⟩ := List.mem_map.1 hu
    exact ⟨(hus x hx).1.ok, (hus x hx).2⟩)
  rw [List.flatMap_map, List.map_map] at hsec
  have hall : ∀ (l : List (Unit4 × List Nat × List (Option LSeq))), (∀ u ∈ l, Described e w vaddr hi u.1 u.2.2) →
      ∀ m acc, Rep m acc → ∃ m' acc', (l.map fun u => u.1.events e w).foldlM (handleUnit vaddr none) m = some m' ∧
        Rep m' (acc ++ acc') ∧ inside hi acc' = ((l.flatMap fun u => u.2.2).flatMap Option.toList).flatMap LSeq.reports := by
    intro l
    induction l with
    | nil => intro _ m acc hm; exact ⟨m, [], rfl, by simpa using hm, rfl⟩
    | cons u l ih =>
      intro hl m acc hm
      obtain ⟨m1, a1, h1, h2, h3⟩ := handleUnit_spec (hl u List.mem_cons_self) hm
      obtain ⟨m2, a2, h4, h5, h6⟩ := ih (fun x hx => hl x (List.mem_cons_of_mem _ hx)) m1 _ h2
      refine ⟨m2, a1 ++ a2, ?_, by rw [← List.append_assoc]; exact h5, ?_⟩
      · rw [List.map_cons, List.foldlM_cons, h1]
        exact h4
      · unfold inside at h3 h6 ⊢
        rw [List.filter_append, h3, h6, List.flatMap_cons, List.flatMap_append, List.flatMap_append]
  obtain ⟨m, acc, h1, h2, h3⟩ := hall us (fun u hu => (hus u hu).1) _ _ rep_empty
  simp only [List.nil_append] at h2
  refine ⟨_, m, hsec, h1, ?_⟩
  intro a ha
  refine ⟨lookup_defined h2 a, ?_⟩
  intro id
  rw [lookup_iff h2, ← ans_inside acc hi a ha, h3, ans_sequences _ _ hap]
  intro s hs
  rw [List.mem_flatMap] at hs
  obtain ⟨o, ho, hso⟩ := hs
  obtain ⟨u, hu, hou⟩ := List.mem_flatMap.1 ho
  rw [Option.mem_toList] at hso
  rw [hso] at hou
  have hf := (hus u hu).1.seqs
  have : ∀ (p : List (List Instr)) (ls : List (Option LSeq)),
      List.Forall₂ (fun is live => (∀ s, live = some s → IsSeq e w u.1 is s ∧ s.Ok ∧ vaddr ≤ s.lo ∧ s.stop < hi) ∧
      (live = none → Dead e w vaddr hi u.1 is)) p ls → some s ∈ ls → s.Ok := by
    intro p ls hf
    induction hf with
    | nil => intro h; cases h
    | cons hx _ ih =>
      intro h
      rcases List.mem_cons.1 h with h | h
      · exact (hx.1 s h.symm).2.1
      · exact ih h
  exact this _ _ hf hou

end Verif.LineMap
