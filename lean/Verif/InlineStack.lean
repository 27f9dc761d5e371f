import Verif.InlineLookup
import Verif.LineMap

/-! # C61: the inline stack of an address (legacy_addr2line.cc, util/symbolize/addr2line_inlinestack.cc)

`none` stands for a failed `CHECK`, a dereferenced null or end pointer, and an endless loop. -/
namespace Verif.Inline
open Verif Verif.RangeMap Verif.LineMap

/-- What is known after reading the debug information: `subprogram_insert_order_` and
`subprograms_by_offset_maps_` (addr2line_inlinestack.h:262-275). -/
structure Info where
  order : List Sub
  byOffset : List (OMap Nat Sub)

/-- The end of the loop of `GetDeclaration`: it has a name and a line (addr2line_inlinestack.cc:722). -/
def complete (s : Sub) : Bool := !s.name.isEmpty && decide (s.callLine ≠ 0)

/-- The loop of `GetDeclaration` (addr2line_inlinestack.cc:722-733) with the map of the file. -/
def declLoop (m : OMap Nat Sub) (s : Sub) : Option Sub :=
  if complete s then some s
  else if s.spec ≠ 0 then
    match OMap.find? m s.spec with
    | none => none
    | some t => declLoop m t
  else if s.origin ≠ 0 then
    match OMap.find? m s.origin with
    | none => none
    | some t => declLoop m t
  else some s
partial_fixpoint

/-- `GetDeclaration` (addr2line_inlinestack.cc:715-735). -/
def getDecl (inf : Info) (s : Sub) : Option Sub :=
  match inf.byOffset[s.fileIndex]? with
  | none => none
  | some m => declLoop m s

/-- `GetAbstractOrigin` (addr2line_inlinestack.cc:737-747). -/
def getOrigin (inf : Info) (s : Sub) : Option Sub :=
  match inf.byOffset[s.fileIndex]? with
  | none => none
  | some m => if s.origin ≠ 0 then OMap.find? m s.origin else some s

/-- `SourceInfo` (source_info.h:18-106).  `func = none`: the null pointer. -/
structure Frame where
  func : Option Name
  dir : Name
  file : Name
  start : Nat
  line : Nat
  discr : Nat
deriving DecidableEq, Repr

/-- `path::is_absolute` of the standard library. -/
def isAbs (p : Name) : Bool := p.head? == some 47

/-- `operator/` of paths in the standard library. -/
def joinPath (a b : Name) : Name :=
  if isAbs b then b
  else if a.isEmpty || a.getLast? == some 47 then a ++ b
  else a ++ 47 :: b

/-- The start line of a frame's function (legacy_addr2line.cc:213-216, 240-245): of the abstract origin, else of
the declaration, else `dflt` (for callers: the call line, line 245; for the innermost function 0). -/
def startLine (origin decl : Sub) (dflt : Nat) : Nat :=
  if origin.callLine ≠ 0 then origin.callLine
  else if decl.callLine ≠ 0 then decl.callLine
  else dflt

/-- The directory of a call site (legacy_addr2line.cc:247-254). -/
def callerDir (inf : Info) (s : Sub) (cdir : Name) : Option Name :=
  if isAbs cdir then some cdir
  else
    match s.compDir with
    | some cd => some (joinPath cd cdir)
    | none => (getOrigin inf s).map fun og =>
      match og.compDir with
      | some cd => joinPath cd cdir
      | none => cdir

/-- The loop over the callers (legacy_addr2line.cc:236-264), from the subprogram at a position.  Parents come later
in the order, which the code does not check; the fuel is the number of subprograms. -/
def callers (inf : Info) : Nat → Nat → Option (List Frame)
  | 0, _ => none
  | fuel + 1, i => do
    let s ← inf.order[i]?
    if s.inlined then
      let p ← s.parent
      let par ← inf.order[p]?
      let decl ← getDecl inf par
      let porig ← getOrigin inf par
      let cdir ← s.callDir
      let dir ← callerDir inf s cdir
      let file ← s.callFile
      let rest ← callers inf fuel p
      some ({ func := some decl.name, dir := dir, file := file, start := startLine porig decl s.callLine,
              line := s.callLine, discr := s.callDiscr } :: rest)
    else some []

/-- `GetInlineStack` (legacy_addr2line.cc:191-265). -/
def inlineStack (inf : Info) (lm : LMap) (m : RMap Nat) (a : Nat) : Option (List Frame) := do
  let li ← LineMap.lookup lm a
  match li with
  | none => some []
  | some li =>
    match subprogFor m a with
    | none =>
      some [{ func := none, dir := li.dir, file := li.file, start := 0, line := li.line, discr := li.discr }]
    | some i =>
      let s ← inf.order[i]?
      let decl ← getDecl inf s
      let orig ← getOrigin inf s
      let cd := s.compDir.or orig.compDir
      let dir := if isAbs li.dir then li.dir else match cd with
        | some cd => joinPath cd li.dir
        | none => li.dir
      let rest ← callers inf (inf.order.length + 1) i
      some ({ func := some decl.name, dir := dir, file := li.file, start := startLine orig decl 0,
              line := li.line, discr := li.discr } :: rest)

/-! ## Specification -/

/-- The subprogram that describes `s`: the first one with a name and a line, following specifications and, where
there is none, abstract origins; or the last one. -/
inductive DeclIn (m : OMap Nat Sub) : Sub → Sub → Prop where
  | complete {s : Sub} (hn : s.name ≠ []) (hl : s.callLine ≠ 0) : DeclIn m s s
  | last {s : Sub} (hs : s.spec = 0) (ho : s.origin = 0) : DeclIn m s s
  | spec {s t d : Sub} (hc : s.name = [] ∨ s.callLine = 0) (hs : s.spec ≠ 0) (hf : OMap.find? m s.spec = some t)
      (h : DeclIn m t d) : DeclIn m s d
  | origin {s t d : Sub} (hc : s.name = [] ∨ s.callLine = 0) (hs : s.spec = 0) (ho : s.origin ≠ 0)
      (hf : OMap.find? m s.origin = some t) (h : DeclIn m t d) : DeclIn m s d

/-- The subprogram that describes `s` in its file. -/
def Decl (inf : Info) (s d : Sub) : Prop := ∃ m, inf.byOffset[s.fileIndex]? = some m ∧ DeclIn m s d

/-- The abstract origin of `s` (itself without one). -/
def OriginOf (inf : Info) (s og : Sub) : Prop :=
  (s.origin = 0 ∧ og = s) ∨
  (s.origin ≠ 0 ∧ ∃ m, inf.byOffset[s.fileIndex]? = some m ∧ OMap.find? m s.origin = some og)

/-- The subprograms that cover an address, from the innermost one outwards. -/
structure InsideOut (vaddr : Nat) (o : List Sub) (a : Nat) (cs : List Nat) : Prop where
  all : ∀ i, i ∈ cs ↔ ∃ s, Kept vaddr o i s ∧ s.Has a
  nested : ∀ (j i p : Nat), cs[j]? = some i → cs[j + 1]? = some p →
    ∃ s, o[i]? = some s ∧ s.inlined = true ∧ s.parent = some p
  last : ∀ i, cs.getLast? = some i → ∃ s, o[i]? = some s ∧ s.inlined = false

/-- `out` is the relative path `b` below the directory `a`, with one separator between them. -/
inductive PathBelow : Name → Name → Name → Prop where
  | empty (b : Name) : PathBelow [] b b
  | slash (a b : Name) : PathBelow (a ++ [47]) b (a ++ [47] ++ b)
  | noSlash (a : Name) (c : Nat) (hc : c ≠ 47) (b : Name) : PathBelow (a ++ [c]) b (a ++ [c] ++ [47] ++ b)

theorem joinPath_below (a b : Name) (hb : isAbs b = false) : PathBelow a b (joinPath a b) := by
  unfold joinPath
  rw [if_neg (by simp [hb])]
  rcases List.eq_nil_or_concat a with rfl | ⟨a, c, rfl⟩
  · simpa using PathBelow.empty b
  · by_cases hc : c = 47
    · subst hc
      simpa using PathBelow.slash a b
    · have := PathBelow.noSlash a c hc b
      simpa [hc] using this

/-- `out` is the directory `dir`, taken relative to the compilation directory of `s`, or else of its abstract
origin, if it is relative. -/
def DirOf (inf : Info) (s : Sub) (dir out : Name) : Prop :=
  (isAbs dir = true → out = dir) ∧
  (isAbs dir = false → ∀ og, OriginOf inf s og →
    (∀ cd, s.compDir.or og.compDir = some cd → PathBelow cd dir out) ∧
    (s.compDir.or og.compDir = none → out = dir))

/-- The frames of a stack: one per subprogram with the name of that subprogram; the innermost one is at the line of
the line table, the others where the next inner subprogram was called. -/
structure IsStack (inf : Info) (li : LineId) (cs : List Nat) (fs : List Frame) : Prop where
  length : fs.length = cs.length
  func : ∀ (j i : Nat) (s : Sub) (f : Frame), cs[j]? = some i → inf.order[i]? = some s → fs[j]? = some f →
    ∃ d, Decl inf s d ∧ f.func = some d.name
  start : ∀ (j i : Nat) (s d og : Sub) (f : Frame), cs[j]? = some i → inf.order[i]? = some s → fs[j]? = some f →
    Decl inf s d → OriginOf inf s og →
    (og.callLine ≠ 0 → f.start = og.callLine) ∧
    (og.callLine = 0 → d.callLine ≠ 0 → f.start = d.callLine) ∧
    (og.callLine = 0 → d.callLine = 0 → f.start = if j = 0 then 0 else f.line)
  inner : ∀ (i : Nat) (s : Sub) (f : Frame), cs[0]? = some i → inf.order[i]? = some s → fs[0]? = some f →
    f.line = li.line ∧ f.discr = li.discr ∧ f.file = li.file ∧ DirOf inf s li.dir f.dir
  outer : ∀ (j i : Nat) (s : Sub) (f : Frame), cs[j]? = some i → inf.order[i]? = some s → fs[j + 1]? = some f →
    f.line = s.callLine ∧ f.discr = s.callDiscr ∧ s.callFile = some f.file ∧
    ∃ cd, s.callDir = some cd ∧ DirOf inf s cd f.dir

/-- References lead to subprograms of the same file and do not go in circles. -/
def RefsOk (m : OMap Nat Sub) (roots : List Sub) : Prop :=
  ∃ rank : Sub → Nat, ∀ s, (s ∈ roots ∨ ∃ k, OMap.find? m k = some s) → ∀ k, k ≠ 0 → (k = s.spec ∨ k = s.origin) →
    ∃ t, OMap.find? m k = some t ∧ rank t < rank s

/-- What the debug information must satisfy for inline stacks to be meaningful: it is tidy, references are in order
and inlined calls have a call file with a directory. -/
structure StackOk (vaddr : Nat) (inf : Info) : Prop where
  tidy : Tidy vaddr inf.order
  refs : ∀ (i : Nat) (s : Sub), Kept vaddr inf.order i s →
    ∃ m, inf.byOffset[s.fileIndex]? = some m ∧ RefsOk m [s]
  calls : ∀ (i : Nat) (s : Sub), Kept vaddr inf.order i s → s.inlined = true → s.callDir ≠ none ∧ s.callFile ≠ none

/-! ## References -/

theorem complete_iff (s : Sub) : complete s = true ↔ s.name ≠ [] ∧ s.callLine ≠ 0 := by
  simp [complete]

/-- `GetDeclaration` ends exactly where the references lead to a description, with that description. -/
theorem declLoop_iff (m : OMap Nat Sub) (s d : Sub) : declLoop m s = some d ↔ DeclIn m s d := by
  constructor
  · intro h
    refine declLoop.partial_correctness m (fun s d => DeclIn m s d) ?_ s d h
    intro f ih s d hd
    split at hd
    · rename_i hc
      obtain ⟨h1, h2⟩ := (complete_iff s).1 hc
      cases hd
      exact .complete h1 h2
    · rename_i hc
      have hc' : s.name = [] ∨ s.callLine = 0 := by
        by_contra hcon
        push Not at hcon
        exact hc ((complete_iff s).2 hcon)
      split at hd
      · rename_i hs
        split at hd
        · cases hd
        · rename_i t ht
          exact .spec hc' hs ht (ih _ _ hd)
      · rename_i hs
        split at hd
        · rename_i ho
          split at hd
          · cases hd
          · rename_i t ht
            exact .origin hc' (by simpa using hs) ho ht (ih _ _ hd)
        · rename_i ho
          cases hd
          exact .last (by simpa using hs) (by simpa using ho)
  · intro h
    induction h with
    | complete h1 h2 => rw [declLoop, if_pos ((complete_iff _).2 ⟨h1, h2⟩)]
    | last h1 h2 => rw [declLoop, if_neg (not_not.2 h1), if_neg (not_not.2 h2)]; simp
    | @spec s t d hc hs hf _ ih =>
      have : ¬ complete s = true := by rw [complete_iff]; rintro ⟨a, b⟩; rcases hc with h | h <;> contradiction
      rw [declLoop, if_neg this, if_pos hs, hf]
      exact ih
    | @origin s t d hc hs ho hf _ ih =>
      have : ¬ complete s = true := by rw [complete_iff]; rintro ⟨a, b⟩; rcases hc with h | h <;> contradiction
      rw [declLoop, if_neg this, if_neg (not_not.2 hs), if_pos ho, hf]
      exact ih

theorem getDecl_iff (inf : Info) (s d : Sub) : getDecl inf s = some d ↔ Decl inf s d := by
  unfold getDecl Decl
  cases h : inf.byOffset[s.fileIndex]? with
  | none => simp
  | some m => simp [declLoop_iff]

theorem getOrigin_iff (inf : Info) (s og : Sub) (hm : (inf.byOffset[s.fileIndex]?).isSome) :
    getOrigin inf s = some og ↔ OriginOf inf s og := by
  unfold getOrigin OriginOf
  obtain ⟨m, h⟩ := Option.isSome_iff_exists.1 hm
  rw [h]
  by_cases ho : s.origin = 0
  · simp [ho, eq_comm]
  · simp [ho]

/-- References in order lead to a description. -/
theorem decl_total (m : OMap Nat Sub) (roots : List Sub) (h : RefsOk m roots) (s : Sub)
    (hs : s ∈ roots ∨ ∃ k, OMap.find? m k = some s) : ∃ d, DeclIn m s d := by
  obtain ⟨rank, h⟩ := h
  have gen : ∀ (n : Nat) (s : Sub), rank s ≤ n → (s ∈ roots ∨ ∃ k, OMap.find? m k = some s) → ∃ d, DeclIn m s d := by
    intro n
    induction n with
    | zero =>
      intro s hr hs
      by_cases h1 : s.spec = 0
      · by_cases h2 : s.origin = 0
        · exact ⟨s, .last h1 h2⟩
        · obtain ⟨t, _, ht⟩ := h s hs _ h2 (Or.inr rfl); omega
      · obtain ⟨t, _, ht⟩ := h s hs _ h1 (Or.inl rfl); omega
    | succ n ih =>
      intro s hr hs
      by_cases hc : s.name = [] ∨ s.callLine = 0
      · by_cases h1 : s.spec = 0
        · by_cases h2 : s.origin = 0
          · exact ⟨s, .last h1 h2⟩
          · obtain ⟨t, hf, ht⟩ := h s hs _ h2 (Or.inr rfl)
            obtain ⟨d, hd⟩ := ih t (by omega) (Or.inr ⟨_, hf⟩)
            exact ⟨d, .origin hc h1 h2 hf hd⟩
        · obtain ⟨t, hf, ht⟩ := h s hs _ h1 (Or.inl rfl)
          obtain ⟨d, hd⟩ := ih t (by omega) (Or.inr ⟨_, hf⟩)
          exact ⟨d, .spec hc h1 hf hd⟩
      · push Not at hc
        exact ⟨s, .complete hc.1 hc.2⟩
  exact gen _ s (Nat.le_refl _) hs

theorem refs_total {vaddr : Nat} {inf : Info} (h : StackOk vaddr inf) {i : Nat} {s : Sub}
    (hk : Kept vaddr inf.order i s) : ∃ d og, getDecl inf s = some d ∧ getOrigin inf s = some og ∧
      Decl inf s d ∧ OriginOf inf s og := by
  obtain ⟨m, hm, hr⟩ := h.refs i s hk
  obtain ⟨d, hd⟩ := decl_total m _ hr s (Or.inl (by simp))
  have hd' : Decl inf s d := ⟨m, hm, hd⟩
  have ho : ∃ og, OriginOf inf s og := by
    by_cases h0 : s.origin = 0
    · exact ⟨s, Or.inl ⟨h0, rfl⟩⟩
    · obtain ⟨rank, hr⟩ := hr
      obtain ⟨t, ht, _⟩ := hr s (Or.inl (by simp)) _ h0 (Or.inr rfl)
      exact ⟨t, Or.inr ⟨h0, m, hm, ht⟩⟩
  obtain ⟨og, ho⟩ := ho
  exact ⟨d, og, (getDecl_iff inf s d).2 hd', (getOrigin_iff inf s og (by simp [hm])).2 ho, hd', ho⟩

theorem decl_unique {inf : Info} {s d d' : Sub} (h : Decl inf s d) (h' : Decl inf s d') : d = d' := by
  rw [← getDecl_iff] at h h'
  exact Option.some.inj (h.symm.trans h')

theorem origin_unique {inf : Info} {s d d' : Sub} (h : OriginOf inf s d) (h' : OriginOf inf s d') : d = d' := by
  rcases h with ⟨h1, rfl⟩ | ⟨h1, m, h2, h3⟩ <;> rcases h' with ⟨h1', rfl⟩ | ⟨h1', m', h2', h3'⟩
  · rfl
  · exact absurd h1 h1'
  · exact absurd h1' h1
  · rw [h2] at h2'
    cases h2'
    exact Option.some.inj (h3.symm.trans h3')

/-! ## Callers -/

/-- A chain of nested inlined calls up to a function. -/
inductive Chn (o : List Sub) : List Nat → Prop where
  | last {i : Nat} {s : Sub} (hs : o[i]? = some s) (hi : s.inlined = false) : Chn o [i]
  | cons {i p : Nat} {s : Sub} {l : List Nat} (hs : o[i]? = some s) (hi : s.inlined = true)
      (hp : s.parent = some p) (h : Chn o (p :: l)) : Chn o (i :: p :: l)

/-- The frame of the caller `par` of the inlined call `s`. -/
structure CallerFrame (inf : Info) (s par : Sub) (f : Frame) : Prop where
  func : ∃ d og, Decl inf par d ∧ OriginOf inf par og ∧ f.func = some d.name ∧ f.start = startLine og d f.line
  line : f.line = s.callLine
  discr : f.discr = s.callDiscr
  file : s.callFile = some f.file
  dir : ∃ cd, s.callDir = some cd ∧ DirOf inf s cd f.dir

inductive CallersOf (inf : Info) : List Nat → List Frame → Prop where
  | last (i : Nat) : CallersOf inf [i] []
  | cons {i p : Nat} {s par : Sub} {l : List Nat} {f : Frame} {fs : List Frame} (hs : inf.order[i]? = some s)
      (hp : inf.order[p]? = some par) (hf : CallerFrame inf s par f) (h : CallersOf inf (p :: l) fs) :
      CallersOf inf (i :: p :: l) (f :: fs)

theorem callers_spec {vaddr : Nat} {inf : Info} (h : StackOk vaddr inf) : ∀ (fuel i : Nat) (s : Sub),
    Kept vaddr inf.order i s → inf.order.length - i < fuel →
    ∃ l fs, callers inf fuel i = some fs ∧ Chn inf.order (i :: l) ∧ CallersOf inf (i :: l) fs := by
  intro fuel
  induction fuel with
  | zero => intro i s _ h; omega
  | succ fuel ih =>
    intro i s hk hlt
    by_cases hi : s.inlined = true
    · obtain ⟨p, hp⟩ := Option.ne_none_iff_exists'.1 (h.tidy.nested i s hk.1 hi)
      obtain ⟨par, hkp, _⟩ := kept_parent vaddr inf.order h.tidy.parents i p s hk hp
      have hip := h.tidy.parents i s p hk.1 hp
      obtain ⟨l, fs, h1, h2, h3⟩ := ih p par hkp (by omega)
      obtain ⟨d, og, hd, ho, hd', ho'⟩ := refs_total h hkp
      obtain ⟨d2, og2, hd2, ho2, hd2', ho2'⟩ := refs_total h hk
      obtain ⟨hcd, hcf⟩ := h.calls i s hk hi
      obtain ⟨cd, hcd⟩ := Option.ne_none_iff_exists'.1 hcd
      obtain ⟨cf, hcf⟩ := Option.ne_none_iff_exists'.1 hcf
      have hdir : ∃ dir, callerDir inf s cd = some dir ∧ DirOf inf s cd dir := by
        unfold callerDir
        by_cases ha : isAbs cd = true
        · refine ⟨cd, by simp [ha], fun _ => rfl, ?_⟩
          intro hc
          rw [ha] at hc
          cases hc
        · cases hcomp : s.compDir with
          | some c =>
            refine ⟨joinPath c cd, by simp [ha], fun hc => absurd hc ha, ?_⟩
            intro hna og' _
            rw [hcomp]
            simpa using joinPath_below c cd hna
          | none =>
            cases hoc : og2.compDir with
            | some c =>
              refine ⟨joinPath c cd, by simp [ha, ho2, hoc], fun hc => absurd hc ha, ?_⟩
              intro hna og' hog'
              rw [origin_unique hog' ho2', hcomp, hoc]
              simpa using joinPath_below c cd hna
            | none =>
              refine ⟨cd, by simp [ha, ho2, hoc], fun hc => absurd hc ha, ?_⟩
              intro _ og' hog'
              rw [origin_unique hog' ho2', hcomp, hoc]
              simp
      obtain ⟨dir, hdir, hdir'⟩ := hdir
      refine ⟨p :: l, ⟨some d.name, dir, cf, startLine og d s.callLine, s.callLine, s.callDiscr⟩ :: fs, ?_,
        .cons hk.1 hi hp h2, ?_⟩
      · rw [callers, hk.1]
        simp only [Option.bind_eq_bind, Option.bind_some, hi, if_true, hp, hkp.1, hd, ho, hcd, hdir, hcf, h1]
      · exact .cons hk.1 hkp.1
          { func := ⟨d, og, hd', ho', rfl, rfl⟩, line := rfl, discr := rfl, file := hcf, dir := ⟨cd, hcd, hdir'⟩ } h3
    · refine ⟨[], [], ?_, .last hk.1 (by simpa using hi), .last i⟩
      rw [callers, hk.1]
      simp [hi]

/-! ## The chain is all subprograms of the address -/

theorem chn_up {o : List Sub} {cs : List Nat} (h : Chn o cs) : ∀ i, cs.head? = some i → ∀ j ∈ cs, Up o i j := by
  induction h with
  | last hs hi =>
    intro i h j hj
    simp at h hj
    subst h hj
    exact .refl _
  | cons hs hi hp _ ih =>
    intro i h j hj
    simp at h
    subst h
    rcases List.mem_cons.1 hj with rfl | hj
    · exact .refl _
    · exact .step hs hp (ih _ rfl j hj)

theorem up_chn {vaddr : Nat} {o : List Sub} (ht : Tidy vaddr o) {cs : List Nat} (h : Chn o cs) :
    ∀ (i j : Nat) (s t : Sub) (a : Nat), cs.head? = some i → Kept vaddr o i s → s.Has a → Kept vaddr o j t →
      t.Has a → Up o i j → j ∈ cs := by
  induction h with
  | @last i s0 hs hi =>
    intro i' j s t a h hk ha hkj htj hup
    simp at h
    subst h
    obtain ⟨r, u, hr, hkr, hrp⟩ := root_exists (vaddr := vaddr) ht.parents _ j t (Nat.le_refl _) hkj
    obtain ⟨u', hku', hua⟩ := hr.kept ht.parents hkj htj
    have : u' = u := Option.some.inj (hku'.1.symm.trans hkr.1)
    subst this
    have hs0 : s0 = s := Option.some.inj (hs.symm.trans hk.1)
    subst hs0
    have hru : u'.inlined = false := by
      by_contra hc
      exact ht.nested r u' hkr.1 (by simpa using hc) hrp
    have := kept_disjoint vaddr o i r s0 u' hk hkr hi hru a ha hua
    have h1 := hup.le ht.parents
    have h2 := hr.le ht.parents
    have : j = i := by omega
    simp [this]
  | @cons i p s0 l hs hi hp _ ih =>
    intro i' j s t a h hk ha hkj htj hup
    simp at h
    subst h
    cases hup with
    | refl => simp
    | step h1 h2 h3 =>
      have e1 := Option.some.inj (h1.symm.trans hs)
      subst e1
      have e2 := Option.some.inj (h2.symm.trans hp)
      subst e2
      have e3 := Option.some.inj (h1.symm.trans hk.1)
      subst e3
      obtain ⟨par, hkp, hw⟩ := kept_parent vaddr o ht.parents _ _ _ hk hp
      exact List.mem_cons_of_mem _ (ih _ j par t a rfl hkp (within_has hw ha) hkj htj h3)

theorem chn_insideOut {vaddr : Nat} {o : List Sub} (ht : Tidy vaddr o) {i : Nat} {l : List Nat}
    (h : Chn o (i :: l)) {a : Nat} (hin : Innermost vaddr o a i) : InsideOut vaddr o a (i :: l) := by
  obtain ⟨s, hk, ha, hno⟩ := hin
  refine { all := ?_, nested := ?_, last := ?_ }
  · intro j
    constructor
    · intro hj
      exact (chn_up h i rfl j hj).kept ht.parents hk ha
    · rintro ⟨t, hkt, hta⟩
      have hup : Up o i j := by
        rcases chain ht _ i j s t (Nat.le_refl _) hk hkt ha hta with h' | h'
        · exact h'
        · by_cases hji : j = i
          · subst hji; exact .refl _
          · obtain ⟨c, u, h1, h2, h3⟩ := h'.child hji
            obtain ⟨u', hku', hua⟩ := h1.kept ht.parents hkt hta
            have : u' = u := Option.some.inj (hku'.1.symm.trans h2)
            subst this
            exact absurd hua (hno c u' hku' h3)
      exact up_chn ht h i j s t a rfl hk ha hkt hta hup
  · clear hk ha hno
    generalize hl : i :: l = cs at h
    clear hl
    induction h with
    | last hs hi =>
      intro j i p h1 h2
      simp at h2
    | @cons i p s0 l hs hi hp _ ih =>
      intro j i' p' h1 h2
      cases j with
      | zero =>
        simp at h1 h2
        subst h1 h2
        exact ⟨s0, hs, hi, hp⟩
      | succ j => exact ih j i' p' (by simpa using h1) (by simpa using h2)
  · clear hk ha hno
    generalize hl : i :: l = cs at h
    clear hl
    induction h with
    | @last i s hs hi =>
      intro k hk
      simp at hk
      subst hk
      exact ⟨s, hs, hi⟩
    | cons hs hi hp _ ih =>
      intro k hk
      rw [List.getLast?_cons_cons] at hk
      exact ih k hk

theorem callersOf_spec {inf : Info} {cs : List Nat} {fs : List Frame} (h : CallersOf inf cs fs) :
    fs.length + 1 = cs.length ∧
    (∀ (j i p : Nat) (s par : Sub) (f : Frame), cs[j]? = some i → cs[j + 1]? = some p → inf.order[i]? = some s →
      inf.order[p]? = some par → fs[j]? = some f → CallerFrame inf s par f) ∧
    (∀ (j i : Nat), cs[j]? = some i → 0 < fs.length → ∃ s, inf.order[i]? = some s) := by
  induction h with
  | last i => refine ⟨rfl, ?_, ?_⟩ <;> intros <;> simp_all
  | @cons i p s par l f fs hs hp hf h ih =>
    refine ⟨by simp [← ih.1], ?_, ?_⟩
    · intro j i' p' s' par' f' h1 h2 h3 h4 h5
      cases j with
      | zero =>
        simp at h1 h2 h5
        subst h1 h2 h5
        rw [hs] at h3
        rw [hp] at h4
        cases h3
        cases h4
        exact hf
      | succ j => exact ih.2.1 j i' p' s' par' f' (by simpa using h1) (by simpa using h2) h3 h4 (by simpa using h5)
    · intro j i' h1 _
      cases j with
      | zero => simp at h1; subst h1; exact ⟨s, hs⟩
      | succ j =>
        cases h with
        | last => 
          cases j with
          | zero => simp at h1; subst h1; exact ⟨par, hp⟩
          | succ j => simp at h1
        | cons hs' hp' hf' h' => exact ih.2.2 j i' (by simpa using h1) (by simp)

theorem startLine_spec (og d : Sub) (x : Nat) : (og.callLine ≠ 0 → startLine og d x = og.callLine) ∧
    (og.callLine = 0 → d.callLine ≠ 0 → startLine og d x = d.callLine) ∧
    (og.callLine = 0 → d.callLine = 0 → startLine og d x = x) := by
  unfold startLine
  refine ⟨fun h => by rw [if_pos h], fun h1 h2 => by rw [if_neg (not_not.2 h1), if_pos h2],
    fun h1 h2 => by rw [if_neg (not_not.2 h1), if_neg (not_not.2 h2)]⟩

/-- **C61.** With tidy debug information, the stack of an address with a source line has one frame for each
subprogram that covers the address, from the innermost one (at the line of the line table) outwards to the function
(each at the line where the next inner one was called), named after their descriptions. -/
theorem inline_stack (vaddr : Nat) (inf : Info) (lm : LMap) (h : StackOk vaddr inf) :
    ∃ m, populate vaddr inf.order = some m ∧ ∀ a,
      (LineMap.lookup lm a = some none → inlineStack inf lm m a = some []) ∧
      (∀ li, LineMap.lookup lm a = some (some li) → (∀ i s, Kept vaddr inf.order i s → ¬ s.Has a) →
        inlineStack inf lm m a = some [
          { func := none, dir := li.dir, file := li.file, start := 0, line := li.line, discr := li.discr }]) ∧
      (∀ li i s, LineMap.lookup lm a = some (some li) → Kept vaddr inf.order i s → s.Has a →
        ∃ cs fs, inlineStack inf lm m a = some fs ∧ InsideOut vaddr inf.order a cs ∧ IsStack inf li cs fs) := by
  obtain ⟨m, hm, hlook⟩ := lookup_innermost vaddr inf.order h.tidy
  refine ⟨m, hm, ?_⟩
  intro a
  refine ⟨?_, ?_, ?_⟩
  · intro hl
    simp [inlineStack, hl]
  · intro li hl hno
    have hnone : subprogFor m a = none := by
      cases hs : subprogFor m a with
      | none => rfl
      | some i =>
        obtain ⟨s, hk, ha, _⟩ := (hlook a i).1 hs
        exact absurd ha (hno i s hk)
    simp [inlineStack, hl, hnone]
  · intro li i0 s0 hl hk0 ha0
    obtain ⟨i, hin⟩ : ∃ i, Innermost vaddr inf.order a i := by
      obtain ⟨i, _, hi⟩ := innermost_below h.tidy _ i0 s0 (Nat.le_refl _) hk0 ha0
      exact ⟨i, hi⟩
    have hsub := (hlook a i).2 hin
    have hin' := hin
    obtain ⟨s, hk, ha, hno⟩ := hin
    obtain ⟨l, fs, h1, h2, h3⟩ := callers_spec h (inf.order.length + 1) i s hk (by omega)
    obtain ⟨d, og, hd, ho, hd', ho'⟩ := refs_total h hk
    refine ⟨i :: l, ⟨some d.name, if isAbs li.dir then li.dir else match s.compDir.or og.compDir with
        | some cd => joinPath cd li.dir
        | none => li.dir, li.file, startLine og d 0, li.line, li.discr⟩ :: fs, ?_,
        chn_insideOut h.tidy h2 hin', ?_⟩
    · simp [inlineStack, hl, hsub, hk.1, hd, ho, h1]
    · obtain ⟨c1, c2, c3⟩ := callersOf_spec h3
      refine { length := by simp [← c1], func := ?_, start := ?_, inner := ?_, outer := ?_ }
      · intro j i' s' f g1 g2 g3
        cases j with
        | zero =>
          simp at g1 g3
          subst g1 g3
          have := Option.some.inj (g2.symm.trans hk.1)
          subst this
          exact ⟨d, hd', rfl⟩
        | succ j =>
          have hj : j < fs.length := by
            have := (List.getElem?_eq_some_iff.1 g3).1
            simpa using this
          have hlen : j < (i :: l).length := by omega
          obtain ⟨s2, hs2⟩ := c3 j (i :: l)[j] (List.getElem?_eq_getElem hlen) (by omega)
          obtain ⟨d2, og2, e1, e2, e3, e4⟩ := (c2 j _ i' s2 s' f (List.getElem?_eq_getElem hlen) g1 hs2 g2
            (by simpa using g3)).func
          exact ⟨d2, e1, e3⟩
      · intro j i' s' d2 og2 f g1 g2 g3 gd go
        cases j with
        | zero =>
          simp at g1 g3
          subst g1 g3
          have := Option.some.inj (g2.symm.trans hk.1)
          subst this
          rw [decl_unique gd hd', origin_unique go ho']
          exact startLine_spec og d 0
        | succ j =>
          have hj : j < fs.length := by
            have := (List.getElem?_eq_some_iff.1 g3).1
            simpa using this
          have hlen : j < (i :: l).length := by omega
          obtain ⟨s2, hs2⟩ := c3 j (i :: l)[j] (List.getElem?_eq_getElem hlen) (by omega)
          obtain ⟨d3, og3, e1, e2, e3, e4⟩ := (c2 j _ i' s2 s' f (List.getElem?_eq_getElem hlen) g1 hs2 g2
            (by simpa using g3)).func
          rw [decl_unique gd e1, origin_unique go e2, e4]
          exact startLine_spec og3 d3 f.line
      · intro i' s' f g1 g2 g3
        simp at g1 g3
        subst g1 g3
        have := Option.some.inj (g2.symm.trans hk.1)
        subst this
        refine ⟨rfl, rfl, rfl, ?_, ?_⟩
        · intro hab; simp [hab]
        · intro hab og2 ho2
          rw [origin_unique ho2 ho']
          refine ⟨fun cd hcd => ?_, fun hcd => ?_⟩
          · simpa [hab, hcd] using joinPath_below cd li.dir hab
          · simp [hab, hcd]
      · intro j i' s' f g1 g2 g3
        have g3' : fs[j]? = some f := by simpa using g3
        have hj := (List.getElem?_eq_some_iff.1 g3').1
        have hlen : j + 1 < (i :: l).length := by omega
        obtain ⟨par, hpar⟩ := c3 (j + 1) (i :: l)[j + 1] (List.getElem?_eq_getElem hlen) (by omega)
        have cf := c2 j i' _ s' par f g1 (List.getElem?_eq_getElem hlen) g2 hpar g3'
        exact ⟨cf.line, cf.discr, cf.file, cf.dir⟩

end Verif.Inline
