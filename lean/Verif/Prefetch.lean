import Verif.Pipeline
import Verif.AfdoMerge

/-!
# C75: profiles of prefetch hints (profile_creator.cc:54-95, 126-129, 223-268; symbol_map.cc:1461-1475)

`create_llvm_prof --profiler=prefetch`: a file of hints, one per line, is turned into a profile in which the hints are call
targets.  Read by `fscanf`; a value out of range is undefined behaviour in C and a failure of the scan here, as in C01.
-/
namespace Verif.Prefetch
open Verif Verif.SymbolMap Verif.AddrLookup Verif.Compute Verif.Afdo
open Verif.Sample (scanNum lit skipWs isWs takeSign scanDigits printNum)

/-- `PrefetchHint` (profile_creator.cc:53-57). -/
structure Hint where
  addr : Nat
  delta : Int
  type : List Char
deriving DecidableEq

/-- `%SCNd64`. -/
def scanInt (s : List Char) : Option (Int × List Char) :=
  let (neg, s) := takeSign (skipWs s)
  let (k, v, r) := scanDigits 10 0 0 s
  if k = 0 ∨ 2 ^ 63 < v ∨ (neg = false ∧ v = 2 ^ 63) then none
  else some (if neg then - (v : Int) else v, r)

/-- `%s`: the word, without its terminating zero. -/
def scanWord (s : List Char) : Option (List Char × List Char) :=
  if ((skipWs s).takeWhile (fun c => !isWs c)).isEmpty then none
  else some ((skipWs s).takeWhile (fun c => !isWs c), (skipWs s).dropWhile (fun c => !isWs c))

/-- `fscanf(fp, "%x,%d,%s\n")` (profile_creator.cc:82-83), with the number of characters stored by `%s`. -/
def scanHint (s : List Char) : Option ((Hint × Nat) × List Char) := do
  let (a, s) ← scanNum 16 s
  let s ← lit ',' s
  let (d, s) ← scanInt s
  let s ← lit ',' s
  let (w, s) ← scanWord s
  some ((⟨a, d, w.takeWhile (· != '\x00')⟩, w.length), skipWs s)

/-- The loop of `ReadPrefetchHints` (profile_creator.cc:81-92); it ends at the end of the file, or at a line it cannot scan.
`none`: a type of more than four characters is written past the end of `char prefetch_type[5]`. -/
def readLoop : Nat → List Char → Option (List Hint)
  | 0, _ => some []
  | n + 1, s =>
    match scanHint s with
    | none => some []
    | some ((h, len), r) =>
      if 4 < len then none
      else if r.isEmpty then some [h]
      else (readLoop n r).map (h :: ·)

/-- `ReadPrefetchHints` (profile_creator.cc:71-96); `none` for a file that cannot be opened.  Every scan but the last takes at
least one character. -/
def readHints : Option (List Char) → Option (List Hint)
  | none => some []
  | some s => readLoop (s.length + 1) s

/-- `"__prefetch_" + hint.type + "_" + std::to_string(prefetch_index)` (profile_creator.cc:257). -/
def targetName (type : List Char) (index : Nat) : Name :=
  ("__prefetch_".toList ++ type ++ ['_'] ++ printNum 10 index).map fun c => UInt8.ofNat c.toNat

/-- `static_cast<uint64_t>(delta)` (profile_creator.cc:258). -/
def asUnsigned (d : Int) : Nat := (d % 2 ^ 64).toNat

/-- `SymbolMap::EnsureEntryInFuncForSymbol` (symbol_map.cc:1461-1475) with `count_threshold() = 0` (symbol_map.h:271), and
`TraverseInlineStack` for data that is not converted (symbol_map.h:447). -/
def ensureEntry (al : Name → List Name) (stack : List Frame) (st : Store) (name : Name) : Option (Store × Bool) :=
  if (OMap.find? st.map name).isSome then some (st, true)
  else if stack.isEmpty then some (st.addSymbol al name, false)
  else ((st.addSymbol al name).update name (Sym.addAlong (0 + 1) id (walk DataSource.afdoProfile.needConversion stack.reverse))).map
    fun st => (st, true)

/-- The loop body of `ConvertPrefetchHints` (profile_creator.cc:234-264).  The second component is `repeated_prefetches_indices`,
with elements of 8 bits. -/
def convertStep (syms : AddrMap) (stack : Nat → List Frame) (al : Name → List Name) (pol : Policy) (x : Store × OMap Nat Nat)
    (h : Hint) : Option (Store × OMap Nat Nat) :=
  match symbolInfo syms h.addr with
  | none => some x
  | some (name, _, _) =>
    (ensureEntry al (stack h.addr) x.1 name).bind fun y =>
      (if y.2 then
        y.1.addIndirectCallTarget pol name (stack h.addr) (targetName h.type ((OMap.find? x.2 h.addr).getD 0))
          (asUnsigned h.delta) .afdoProfile
      else some y.1).map fun st => (st, OMap.set h.addr (((OMap.find? x.2 h.addr).getD 0 + 1) % 256) x.2)

/-- The loop of `ConvertPrefetchHints` (profile_creator.cc:233-265). -/
def convert (syms : AddrMap) (stack : Nat → List Frame) (al : Name → List Name) (pol : Policy) (H : List Hint) : Option Store :=
  (H.foldlM (convertStep syms stack al pol) (⟨[], fun _ => Sym.new, 0⟩, [])).map Prod.fst

/-- The functions and stacks of a binary are there for all hints (no null pointer in `GetInlineStack`). -/
def stacksOk (m : Elf.SymMap) (p : Addr2Line.Prepared) (H : List Hint) : Bool :=
  H.all fun h => (symbolInfo m.map h.addr).isNone || (p.stack h.addr).isSome

/-- `CreateProfile` with the profiler `prefetch` (profile_creator.cc:117-129, 223-268), up to the writer. -/
def createPrefetch (path : List Nat) (disk : Option (List Nat)) (file : Option (List Char)) (pol : Policy) : Option (Option Store) :=
  (Elf.buildSymbolMap path disk).bind fun m =>
  (Elf.prepareFile path disk).bind fun
    | none => some none
    | some p => (readHints file).bind fun H =>
      if stacksOk m p H then
        ((convert m.map (fun a => ((p.stack a).getD []).map Pipeline.toFrame) (Pipeline.aliasesOf m) pol H).bind (elide pol)).map some
      else none

/-! ## Specification -/

/-- A line of the file. -/
def line (h : Hint) : List Char :=
  printNum 16 h.addr ++ ',' :: ((if h.delta < 0 then '-' :: printNum 10 h.delta.natAbs else printNum 10 h.delta.natAbs) ++
    ',' :: (h.type ++ ['\n']))

/-- The fields fit: an address and a delta of 64 bits, a type of one to four visible characters. -/
structure Hint.Fits (h : Hint) : Prop where
  addr : h.addr < 2 ^ 64
  low : - 2 ^ 63 ≤ h.delta
  high : h.delta < 2 ^ 63
  some : h.type ≠ []
  short : h.type.length ≤ 4
  visible : ∀ c ∈ h.type, isWs c = false ∧ c ≠ '\x00'

/-- The hint is for an instruction of the function `e` (address, name, size). -/
def In (e : Nat × Name × Nat) (h : Hint) : Prop := e.1 ≤ h.addr ∧ h.addr < e.1 + e.2.2

instance (e : Nat × Name × Nat) (h : Hint) : Decidable (In e h) := by unfold In; infer_instance

/-- Its number among the hints for the same instruction. -/
def number (pre : List Hint) (h : Hint) : Nat := pre.countP fun x => decide (x.addr = h.addr)

/-- The call target it becomes, if the hints `pre` precede it. -/
def nameOf (pol : Policy) (pre : List Hint) (h : Hint) : Name := originalName pol (targetName h.type (number pre h % 256))

/-- The count of a call target, if there is such a target. -/
def target? (s : Sym) (p : List Callsite) (loc : Nat) (n : Name) : Option Nat :=
  (s.node? p).bind fun d => (OMap.find? d.pos loc).bind fun i => OMap.find? i.targets n

/-- The symbol of the function `e` after the hints `H`. -/
structure HintProfile (stack : Nat → List Frame) (pol : Policy) (H : List Hint) (e : Nat × Name × Nat) (s : Sym) : Prop where
  /-- The inline instances are those of the hints. -/
  nodes : ∀ p, (s.node? p).isSome = true ↔ p = [] ∨ ∃ h ∈ H, In e h ∧ through false (stack h.addr) p = true
  /-- One sample, where the first hint is. -/
  total : ∀ pre h post, H = pre ++ h :: post → In e h → (∀ x ∈ pre, ¬ In e x) →
    ∀ p, s.totalAt p = if through false (stack h.addr) p = true then 1 else 0
  head : ∀ p, s.headAt p = 0
  count : ∀ p loc, s.countAt p loc = 0
  inst : ∀ p loc, s.instAt p loc = 0
  /-- Every call target is a hint. -/
  sound : ∀ p loc n v, target? s p loc n = some v → ∃ pre h post, H = pre ++ h :: post ∧ In e h ∧
    lands false (stack h.addr) p loc = true ∧ n = nameOf pol pre h ∧ v = asUnsigned h.delta
  /-- Every hint is a call target, unless a later one of the same name is put in its place. -/
  complete : ∀ pre h post p loc, H = pre ++ h :: post → In e h → lands false (stack h.addr) p loc = true →
    (∀ mid x post', post = mid ++ x :: post' → In e x → lands false (stack x.addr) p loc = true →
      nameOf pol (pre ++ h :: mid) x ≠ nameOf pol pre h) →
    target? s p loc (nameOf pol pre h) = some (asUnsigned h.delta)
  /-- No other locations. -/
  locs : ∀ p d loc, s.node? p = some d → (OMap.find? d.pos loc).isSome = true →
    ∃ h ∈ H, In e h ∧ lands false (stack h.addr) p loc = true

/-! ## Reading -/

theorem skipWs_of_head {c : Char} {t : List Char} (h : isWs c = false) : skipWs (c :: t) = c :: t := by
  simp [skipWs, h]

theorem scanInt_print (d : Int) (hl : - 2 ^ 63 ≤ d) (hh : d < 2 ^ 63) (rest : List Char) :
    scanInt ((if d < 0 then '-' :: printNum 10 d.natAbs else printNum 10 d.natAbs) ++ ',' :: rest) = some (d, ',' :: rest) := by
  have hscan : scanDigits 10 0 0 (printNum 10 d.natAbs ++ ',' :: rest) =
      ((printNum 10 d.natAbs).length, d.natAbs, ',' :: rest) := by
    rw [Sample.scanDigits_printNum 10 (.inl rfl)]
    have : Sample.digitVal 10 ',' = none := by decide
    simp [scanDigits, this]
  obtain ⟨x, t, hx, he, _⟩ := Sample.printNum_head 10 (.inl rfl) d.natAbs
  obtain ⟨h1, h2, h3, _⟩ := Sample.digitChar_not_ws 10 x (.inl rfl) hx
  have hlen : 0 < (printNum 10 d.natAbs).length := by rw [he]; simp
  unfold scanInt
  by_cases hd : d < 0
  · rw [if_pos hd, List.cons_append, skipWs_of_head (by decide)]
    simp only [takeSign, if_true, hscan]
    have hb : d.natAbs ≤ 2 ^ 63 := by omega
    have hne : ¬ ((printNum 10 d.natAbs).length = 0 ∨ 2 ^ 63 < d.natAbs ∨ (true = false ∧ d.natAbs = 2 ^ 63)) := by
      rintro (h | h | ⟨h, _⟩)
      · omega
      · omega
      · cases h
    rw [if_neg hne]
    have : -(d.natAbs : Int) = d := by omega
    rw [this]
  · rw [if_neg hd, he, List.cons_append, skipWs_of_head h1]
    simp only [takeSign, h2, h3, if_false]
    rw [← List.cons_append, ← he, hscan]
    have hb : d.natAbs < 2 ^ 63 := by omega
    have hne : ¬ ((printNum 10 d.natAbs).length = 0 ∨ 2 ^ 63 < d.natAbs ∨ (True ∧ d.natAbs = 2 ^ 63)) := by
      rintro (h | h | ⟨_, h⟩) <;> omega
    simp only
    rw [if_neg hne]
    have : (d.natAbs : Int) = d := by omega
    simp only [Bool.false_eq_true, if_false, this]

theorem scanWord_print (w : List Char) (hw : w ≠ []) (hv : ∀ c ∈ w, isWs c = false) (rest : List Char) :
    scanWord (w ++ '\n' :: rest) = some (w, '\n' :: rest) := by
  have h1 : skipWs (w ++ '\n' :: rest) = w ++ '\n' :: rest := by
    cases w with
    | nil => exact absurd rfl hw
    | cons c t => exact skipWs_of_head (hv c List.mem_cons_self)
  have h2 : (w ++ '\n' :: rest).takeWhile (fun c => !isWs c) = w := by
    rw [List.takeWhile_append_of_pos (by intro c hc; simp [hv c hc])]
    simp [show isWs '\n' = true by decide]
  have h3 : (w ++ '\n' :: rest).dropWhile (fun c => !isWs c) = '\n' :: rest := by
    rw [List.dropWhile_append_of_pos (by intro c hc; simp [hv c hc])]
    simp [show isWs '\n' = true by decide]
  unfold scanWord
  rw [h1, h2, h3, if_neg]
  cases w with
  | nil => exact absurd rfl hw
  | cons c t => simp

theorem scanHint_line (h : Hint) (hf : h.Fits) (rest : List Char) :
    scanHint (line h ++ rest) = some ((h, h.type.length), skipWs rest) := by
  unfold scanHint line
  simp only [List.append_assoc, List.cons_append, List.nil_append]
  rw [Sample.scanNum_printNum 16 (Or.inr rfl) _ hf.addr _ (Sample.stops_cons rfl (by decide) (by decide))]
  simp only [Option.bind_eq_bind, Option.bind_some, Sample.lit_cons]
  rw [scanInt_print _ hf.low hf.high]
  simp only [Option.bind_some, Sample.lit_cons]
  rw [scanWord_print _ hf.some fun c hc => (hf.visible c hc).1]
  simp only [Option.bind_some]
  have h1 : h.type.takeWhile (· != '\x00') = h.type := by
    have := List.takeWhile_append_of_pos (p := (· != '\x00')) (l₁ := h.type) (l₂ := [])
      (by intro c hc; simpa using (hf.visible c hc).2)
    simpa using this
  rw [h1]
  simp [skipWs, show isWs '\n' = true by decide]

theorem line_length (h : Hint) : 1 ≤ (line h).length := by
  unfold line; simp; omega

theorem line_skip (h : Hint) (r : List Char) : skipWs (line h ++ r) = line h ++ r := by
  unfold line
  rw [List.append_assoc]
  exact Sample.skipWs_printNum 16 (.inr rfl) _ _

theorem readLoop_lines (H : List Hint) (hf : ∀ h ∈ H, h.Fits) (tail : List Char) (ht : scanHint tail = none)
    (hs : skipWs tail = tail) (n : Nat) (hn : H.length < n) :
    readLoop n (H.flatMap line ++ tail) = some H := by
  induction H generalizing n with
  | nil =>
    cases n with
    | zero => omega
    | succ n => simp [readLoop, ht]
  | cons h t ih =>
    cases n with
    | zero => omega
    | succ n =>
      rw [List.flatMap_cons, List.append_assoc]
      unfold readLoop
      rw [scanHint_line h (hf h List.mem_cons_self)]
      simp only
      have hsh := (hf h List.mem_cons_self).short
      rw [if_neg (by omega)]
      have hsk : skipWs (t.flatMap line ++ tail) = t.flatMap line ++ tail := by
        cases t with
        | nil => exact hs
        | cons h' t' => rw [List.flatMap_cons, List.append_assoc]; exact line_skip _ _
      rw [hsk]
      cases he : (t.flatMap line ++ tail).isEmpty with
      | true =>
        have : t = [] := by
          cases t with
          | nil => rfl
          | cons h' t' =>
            rw [List.isEmpty_iff] at he
            have := congrArg List.length he
            have h2 := line_length h'
            simp only [List.flatMap_cons, List.length_append, List.length_nil] at this
            omega
        simp [this]
      | false =>
        rw [ih (fun x hx => hf x (List.mem_cons_of_mem _ hx)) n (by simp at hn; omega)]
        simp

theorem lines_length (H : List Hint) : H.length ≤ (H.flatMap line).length := by
  induction H with
  | nil => simp
  | cons h t ih =>
    have := line_length h
    simp only [List.length_cons, List.flatMap_cons, List.length_append]
    omega

/-- **C75 (reading).** Every list of hints whose fields fit is read back from its lines.  What follows a line that is no hint is
not read. -/
theorem read_hints (H : List Hint) (hf : ∀ h ∈ H, h.Fits) (tail : List Char) (ht : scanHint tail = none)
    (hs : skipWs tail = tail) : readHints (some (H.flatMap line ++ tail)) = some H := by
  unfold readHints
  apply readLoop_lines H hf tail ht hs
  have := lines_length H
  rw [List.length_append]
  omega

/-! ## The symbol of one function -/

/-- The symbol after one more hint. -/
def addHint (stack : List Frame) (tgt : Name) (v : Nat) (o : Option Sym) : Sym :=
  match stack with
  | [] => o.getD Sym.new
  | f :: _ => Sym.addAlong 0 (leafTarget false f tgt v) (walk false stack.reverse)
      (o.getD (Sym.addAlong 1 id (walk false stack.reverse) Sym.new))

/-- The symbol of a function after the hints, the last one first. -/
def symOf (syms : AddrMap) (stack : Nat → List Frame) (pol : Policy) : List Hint → Name → Option Sym
  | [], _ => none
  | h :: pre, f =>
    if (symbolInfo syms h.addr).map Prod.fst = some f then
      some (addHint (stack h.addr) (nameOf pol pre h) (asUnsigned h.delta) (symOf syms stack pol pre f))
    else symOf syms stack pol pre f

theorem addAlong1_WF (stack : List Frame) : (Sym.addAlong 1 id (walk false stack.reverse) Sym.new).WF :=
  addAlong_WF _ _ (fun _ h1 h2 => ⟨h1, h2⟩) _ _ Sym.WF.new

theorem addHint_WF (stack : List Frame) (tgt : Name) (v : Nat) (o : Option Sym) (ho : ∀ s, o = some s → s.WF) :
    (addHint stack tgt v o).WF := by
  unfold addHint
  cases stack with
  | nil => cases o with
    | none => exact Sym.WF.new
    | some s => exact ho s rfl
  | cons f t =>
    apply addAlong_WF _ _ (fun d h1 h2 => leafTarget_WF _ _ _ _ d h1 h2)
    cases o with
    | none => exact addAlong1_WF _
    | some s => exact ho s rfl

theorem number_reverse (R : List Hint) (h : Hint) : number R.reverse h = number R h := by
  unfold number; rw [List.countP_reverse]

theorem nameOf_reverse (pol : Policy) (R : List Hint) (h : Hint) : nameOf pol R.reverse h = nameOf pol R h := by
  unfold nameOf; rw [number_reverse]

/-- Whether there is an entry for a location. -/
def hasLoc (s : Sym) (p : List Callsite) (loc : Nat) : Bool := ((s.node? p).bind fun d => OMap.find? d.pos loc).isSome

theorem lands_iff (f : Frame) (t : List Frame) (p : List Callsite) (loc : Nat) :
    lands false (f :: t) p loc = true ↔ p = walk false (f :: t).reverse ∧ loc = f.off := by
  unfold lands
  rw [walk_eq_usedPath]
  simp only [Bool.false_and, Bool.not_false, Bool.and_true, Bool.and_eq_true, decide_eq_true_eq]
  exact and_congr_right fun _ => eq_comm

theorem nodeD_ok {s : Sym} (hs : s.WF) (p : List Callsite) : PosOk (s.nodeD p).pos := by
  unfold Sym.nodeD
  cases h : s.node? p with
  | none => exact ⟨OMap.sorted_nil, fun l i hi => by cases hi⟩
  | some d => exact node?_PosOk hs h

theorem target?_nodeD (s : Sym) (p : List Callsite) (loc : Nat) (n : Name) :
    target? s p loc n = (OMap.find? (s.nodeD p).pos loc).bind fun i => OMap.find? i.targets n := by
  unfold target? Sym.nodeD
  cases s.node? p <;> rfl

theorem hasLoc_nodeD (s : Sym) (p : List Callsite) (loc : Nat) : hasLoc s p loc = (OMap.find? (s.nodeD p).pos loc).isSome := by
  unfold hasLoc Sym.nodeD
  cases s.node? p <;> rfl

/-- What one more hint does to a symbol. -/
structure HintAdded (stack : List Frame) (tgt : Name) (v one : Nat) (s s' : Sym) : Prop where
  nodes : ∀ p, (s'.node? p).isSome = ((s.node? p).isSome || through false stack p)
  total : ∀ p, s'.totalAt p = s.totalAt p + if through false stack p = true then one else 0
  head : ∀ p, s'.headAt p = s.headAt p
  count : ∀ p loc, s'.countAt p loc = s.countAt p loc
  inst : ∀ p loc, s'.instAt p loc = s.instAt p loc
  target : ∀ p loc n, target? s' p loc n = if lands false stack p loc = true ∧ n = tgt then some v else target? s p loc n
  locs : ∀ p loc, hasLoc s' p loc = (hasLoc s p loc || lands false stack p loc)

theorem addAlong_target (f : Frame) (t : List Frame) (tgt : Name) (v : Nat) (s : Sym) (hs : s.WF) :
    HintAdded (f :: t) tgt v 0 s (Sym.addAlong 0 (leafTarget false f tgt v) (walk false (f :: t).reverse) s) := by
  have hn := addAlong_node? 0 (leafTarget false f tgt v) (walk false (f :: t).reverse) s
  have hth : ∀ p, through false (f :: t) p = true ↔ p <+: walk false (f :: t).reverse := by
    intro p; rw [prefix_iff_through, walk_eq_usedPath]
  generalize hq : walk false (f :: t).reverse = q at *
  have hla : ∀ p loc, lands false (f :: t) p loc = true ↔ p = q ∧ loc = f.off := by
    intro p loc; rw [lands_iff, hq]
  -- the data at a path
  have hD : ∀ p, (Sym.addAlong 0 (leafTarget false f tgt v) q s).nodeD p =
      if p = q then leafTarget false f tgt v (s.nodeD p) else s.nodeD p := by
    intro p
    rw [Sym.nodeD, hn]
    by_cases h1 : p = q
    · rw [if_pos h1, if_pos h1]; rfl
    · rw [if_neg h1, if_neg h1]
      by_cases h2 : p <+: q
      · rw [if_pos h2]; rfl
      · rw [if_neg h2]; rfl
  obtain ⟨l1, l2, l3⟩ : (∀ d, (leafTarget false f tgt v d).total = d.total) ∧ (∀ d, (leafTarget false f tgt v d).head = d.head) ∧
      ∀ d : Data, PosOk d.pos → ∀ loc, OMap.find? (leafTarget false f tgt v d).pos loc =
        if loc = f.off then some { ((OMap.find? d.pos loc).getD PInfo.zero) with
          targets := OMap.set tgt v ((OMap.find? d.pos loc).getD PInfo.zero).targets } else OMap.find? d.pos loc := by
    refine ⟨fun d => rfl, fun d => rfl, ?_⟩
    intro d hd loc
    simp only [leafTarget, Bool.false_and, Bool.false_eq_true, if_false]
    rw [PosMap.find?_modify hd.1]
    by_cases hl : loc = f.off <;> simp [hl]
  have hok := nodeD_ok hs
  refine ⟨?_, ?_, ?_, ?_, ?_, ?_, ?_⟩
  · intro p
    rw [hn]
    by_cases h1 : p = q
    · rw [if_pos h1]
      have := (hth p).2 (h1 ▸ List.prefix_refl _)
      simp [this]
    · rw [if_neg h1]
      by_cases h2 : p <+: q
      · rw [if_pos h2]
        simp [(hth p).2 h2]
      · rw [if_neg h2]
        have : through false (f :: t) p = false := by
          rw [Bool.eq_false_iff]; exact fun hc => h2 ((hth p).1 hc)
        simp [this]
  · intro p
    show ((Sym.addAlong 0 _ q s).nodeD p).total = (s.nodeD p).total + _
    rw [hD]
    by_cases h1 : p = q
    · rw [if_pos h1, l1]; simp
    · rw [if_neg h1]; simp
  · intro p
    show ((Sym.addAlong 0 _ q s).nodeD p).head = (s.nodeD p).head
    rw [hD]
    by_cases h1 : p = q
    · rw [if_pos h1, l2]
    · rw [if_neg h1]
  · intro p loc
    show ((Sym.addAlong 0 _ q s).nodeD p).pos.countAt loc = (s.nodeD p).pos.countAt loc
    rw [hD]
    by_cases h1 : p = q
    · rw [if_pos h1]
      unfold PosMap.countAt
      rw [l3 _ (hok p)]
      by_cases hl : loc = f.off
      · rw [if_pos hl]; rfl
      · rw [if_neg hl]
    · rw [if_neg h1]
  · intro p loc
    show ((Sym.addAlong 0 _ q s).nodeD p).pos.instAt loc = (s.nodeD p).pos.instAt loc
    rw [hD]
    by_cases h1 : p = q
    · rw [if_pos h1]
      unfold PosMap.instAt
      rw [l3 _ (hok p)]
      by_cases hl : loc = f.off
      · rw [if_pos hl]; rfl
      · rw [if_neg hl]
    · rw [if_neg h1]
  · intro p loc n
    rw [target?_nodeD, target?_nodeD, hD]
    by_cases h1 : p = q
    · rw [if_pos h1, l3 _ (hok p)]
      by_cases hl : loc = f.off
      · rw [if_pos hl]
        simp only [Option.bind_some]
        have hts : OMap.Sorted ((OMap.find? (s.nodeD p).pos loc).getD PInfo.zero).targets := by
          cases hf : OMap.find? (s.nodeD p).pos loc with
          | none => exact OMap.sorted_nil
          | some i => exact (hok p).2 _ _ hf
        unfold OMap.set
        rw [OMap.find?_upsert hts]
        by_cases hnt : n = tgt
        · rw [if_pos hnt, if_pos ⟨(hla p loc).2 ⟨h1, hl⟩, hnt⟩]
        · rw [if_neg hnt, if_neg (fun hc => hnt hc.2)]
          cases OMap.find? (s.nodeD p).pos loc <;> rfl
      · rw [if_neg hl, if_neg (fun hc => hl ((hla p loc).1 hc.1).2)]
    · rw [if_neg h1, if_neg (fun hc => h1 ((hla p loc).1 hc.1).1)]
  · intro p loc
    rw [hasLoc_nodeD, hasLoc_nodeD, hD]
    by_cases h1 : p = q
    · rw [if_pos h1, l3 _ (hok p)]
      by_cases hl : loc = f.off
      · rw [if_pos hl, (hla p loc).2 ⟨h1, hl⟩]; simp
      · have : lands false (f :: t) p loc = false := by
          rw [Bool.eq_false_iff]; exact fun hc => hl ((hla p loc).1 hc).2
        rw [if_neg hl, this, Bool.or_false]
    · have : lands false (f :: t) p loc = false := by
        rw [Bool.eq_false_iff]; exact fun hc => h1 ((hla p loc).1 hc).1
      rw [if_neg h1, this, Bool.or_false]

theorem addHint_obs (stack : List Frame) (tgt : Name) (v : Nat) (o : Option Sym) (ho : ∀ s, o = some s → s.WF) :
    HintAdded stack tgt v (if o.isNone then 1 else 0) (o.getD Sym.new) (addHint stack tgt v o) := by
  unfold addHint
  cases stack with
  | nil =>
    have h1 : ∀ p, through false [] p = false := fun p => rfl
    refine ⟨?_, ?_, fun _ => rfl, fun _ _ => rfl, fun _ _ => rfl, ?_, ?_⟩
    · intro p; simp [h1]
    · intro p; simp [h1]
    · intro p loc n; simp [lands]
    · intro p loc; simp [lands]
  | cons f t =>
    cases o with
    | some s => exact addAlong_target f t tgt v s (ho s rfl)
    | none =>
      have h := addAlong_target f t tgt v _ (addAlong1_WF (f :: t))
      simp only [Option.getD_none, Option.isNone_none, if_true]
      have hn := addAlong_node? 1 id (walk false (f :: t).reverse) Sym.new
      have hth : ∀ p, through false (f :: t) p = true ↔ p <+: walk false (f :: t).reverse := by
        intro p; rw [prefix_iff_through, walk_eq_usedPath]
      generalize walk false (f :: t).reverse = q at *
      have hD : ∀ p, (Sym.addAlong 1 id q Sym.new).nodeD p =
          if through false (f :: t) p = true then { Sym.new.nodeD p with total := (Sym.new.nodeD p).total + 1 }
          else Sym.new.nodeD p := by
        intro p
        rw [Sym.nodeD, hn]
        by_cases h1 : p = q
        · rw [if_pos h1, if_pos ((hth p).2 (h1 ▸ List.prefix_refl _))]; rfl
        · rw [if_neg h1]
          by_cases h2 : p <+: q
          · rw [if_pos h2, if_pos ((hth p).2 h2)]; rfl
          · rw [if_neg h2, if_neg (fun hc => h2 ((hth p).1 hc))]; rfl
      have hpos : ∀ p, ((Sym.addAlong 1 id q Sym.new).nodeD p).pos = (Sym.new.nodeD p).pos := by
        intro p; rw [hD]; split <;> rfl
      refine ⟨?_, ?_, ?_, ?_, ?_, ?_, ?_⟩
      · intro p
        rw [h.nodes, hn]
        by_cases h1 : p = q
        · have := (hth p).2 (h1 ▸ List.prefix_refl _)
          simp [this]
        · by_cases h2 : p <+: q
          · simp [(hth p).2 h2]
          · rw [if_neg h1, if_neg h2]
      · intro p
        rw [h.total]
        show ((Sym.addAlong 1 id q Sym.new).nodeD p).total + _ = (Sym.new.nodeD p).total + _
        rw [hD]
        split <;> simp
      · intro p
        rw [h.head]
        show ((Sym.addAlong 1 id q Sym.new).nodeD p).head = (Sym.new.nodeD p).head
        rw [hD]
        split <;> rfl
      · intro p loc
        rw [h.count]
        show ((Sym.addAlong 1 id q Sym.new).nodeD p).pos.countAt loc = (Sym.new.nodeD p).pos.countAt loc
        rw [hpos]
      · intro p loc
        rw [h.inst]
        show ((Sym.addAlong 1 id q Sym.new).nodeD p).pos.instAt loc = (Sym.new.nodeD p).pos.instAt loc
        rw [hpos]
      · intro p loc n
        rw [h.target]
        simp only [target?_nodeD, hpos]
      · intro p loc
        rw [h.locs]
        simp only [hasLoc_nodeD, hpos]

theorem split_snoc {A : Type} {H pre post : List A} {h x : A} (heq : H ++ [h] = pre ++ x :: post) :
    (post = [] ∧ pre = H ∧ x = h) ∨ ∃ post', post = post' ++ [h] ∧ H = pre ++ x :: post' := by
  rcases List.eq_nil_or_concat' post with rfl | ⟨post', y, rfl⟩
  · left
    have := List.append_inj' heq rfl
    exact ⟨rfl, this.1.symm, by simpa using this.2.symm⟩
  · right
    rw [show pre ++ x :: (post' ++ [y]) = (pre ++ x :: post') ++ [y] by simp] at heq
    have := List.append_inj' heq rfl
    have hy : y = h := by simpa using this.2.symm
    exact ⟨post', by rw [hy], this.1⟩

/-- One more hint for the function. -/
theorem profile_snoc (stack : Nat → List Frame) (pol : Policy) (H : List Hint) (e : Nat × Name × Nat) (s : Sym) (hs : s.WF)
    (hp : HintProfile stack pol H e s) (hex : ∃ x ∈ H, In e x) (h : Hint) (hin : In e h) :
    HintProfile stack pol (H ++ [h]) e (addHint (stack h.addr) (nameOf pol H h) (asUnsigned h.delta) (some s)) := by
  have ha := addHint_obs (stack h.addr) (nameOf pol H h) (asUnsigned h.delta) (some s) (fun s' hs' => by cases hs'; exact hs)
  simp only [Option.getD_some, Option.isNone_some, Bool.false_eq_true, if_false] at ha
  refine ⟨?_, ?_, ?_, ?_, ?_, ?_, ?_, ?_⟩
  · intro p
    rw [ha.nodes, Bool.or_eq_true, hp.nodes]
    constructor
    · rintro ((h1 | ⟨x, hx, h2⟩) | h1)
      · exact .inl h1
      · exact .inr ⟨x, List.mem_append_left _ hx, h2⟩
      · exact .inr ⟨h, by simp, hin, h1⟩
    · rintro (h1 | ⟨x, hx, h2, h3⟩)
      · exact .inl (.inl h1)
      · rcases List.mem_append.1 hx with hx | hx
        · exact .inl (.inr ⟨x, hx, h2, h3⟩)
        · rw [List.mem_singleton] at hx
          subst hx
          exact .inr h3
  · intro pre x post heq hx hno p
    rw [ha.total]
    simp only [ite_self, Nat.add_zero]
    rcases split_snoc heq with ⟨_, rfl, _⟩ | ⟨post', _, h2⟩
    · obtain ⟨y, hy, hy'⟩ := hex
      exact absurd hy' (hno y hy)
    · exact hp.total pre x post' h2 hx hno p
  · intro p; rw [ha.head, hp.head]
  · intro p loc; rw [ha.count, hp.count]
  · intro p loc; rw [ha.inst, hp.inst]
  · intro p loc n v hv
    rw [ha.target] at hv
    split at hv
    · rename_i hc
      cases hv
      exact ⟨H, h, [], rfl, hin, hc.1, hc.2, rfl⟩
    · obtain ⟨pre, x, post, h1, h2⟩ := hp.sound p loc n v hv
      exact ⟨pre, x, post ++ [h], by rw [h1]; simp, h2⟩
  · intro pre x post p loc heq hx hl hlater
    rw [ha.target]
    rcases split_snoc heq with ⟨rfl, rfl, rfl⟩ | ⟨post', rfl, h2⟩
    · rw [if_pos ⟨hl, rfl⟩]
    · rw [if_neg]
      · apply hp.complete pre x post' p loc h2 hx hl
        intro mid y post'' h3 hy hyl
        exact hlater mid y (post'' ++ [h]) (by rw [h3]; simp) hy hyl
      · rintro ⟨h3, h4⟩
        apply hlater post' h [] rfl hin h3
        rw [← h2]
        exact h4.symm
  · intro p d loc hd hloc
    have h1 : hasLoc (addHint (stack h.addr) (nameOf pol H h) (asUnsigned h.delta) (some s)) p loc = true := by
      unfold hasLoc; rw [hd]; exact hloc
    rw [ha.locs, Bool.or_eq_true] at h1
    rcases h1 with h1 | h1
    · unfold hasLoc at h1
      cases hn : s.node? p with
      | none => rw [hn] at h1; cases h1
      | some d' =>
        rw [hn] at h1
        obtain ⟨x, hx, h2⟩ := hp.locs p d' loc hn h1
        exact ⟨x, List.mem_append_left _ hx, h2⟩
    · exact ⟨h, by simp, hin, h1⟩

theorem new_at (p : List Callsite) : Sym.new.nodeD p = Data.zero := by
  unfold Sym.nodeD
  rw [Sym.new_node?]
  split <;> rfl

/-- The first hint for the function. -/
theorem profile_first (stack : Nat → List Frame) (pol : Policy) (H : List Hint) (e : Nat × Name × Nat)
    (hno : ∀ x ∈ H, ¬ In e x) (h : Hint) (hin : In e h) :
    HintProfile stack pol (H ++ [h]) e (addHint (stack h.addr) (nameOf pol H h) (asUnsigned h.delta) none) := by
  have ha := addHint_obs (stack h.addr) (nameOf pol H h) (asUnsigned h.delta) none (fun s' hs' => by cases hs')
  simp only [Option.getD_none, Option.isNone_none, if_true] at ha
  have hfirst : ∀ {pre x post}, H ++ [h] = pre ++ x :: post → In e x → post = [] ∧ pre = H ∧ x = h := by
    intro pre x post heq hx
    rcases split_snoc heq with h1 | ⟨post', _, h2⟩
    · exact h1
    · exact absurd hx (hno x (by rw [h2]; simp))
  refine ⟨?_, ?_, ?_, ?_, ?_, ?_, ?_, ?_⟩
  · intro p
    rw [ha.nodes, Bool.or_eq_true, Sym.new_node?]
    constructor
    · rintro (h1 | h1)
      · left
        by_contra hc
        rw [if_neg hc] at h1
        cases h1
      · exact .inr ⟨h, by simp, hin, h1⟩
    · rintro (h1 | ⟨x, hx, h2, h3⟩)
      · rw [if_pos h1]; exact .inl rfl
      · rcases List.mem_append.1 hx with hx | hx
        · exact absurd h2 (hno x hx)
        · rw [List.mem_singleton] at hx
          subst hx
          exact .inr h3
  · intro pre x post heq hx _ p
    obtain ⟨_, _, rfl⟩ := hfirst heq hx
    rw [ha.total]
    show (Sym.new.nodeD p).total + _ = _
    rw [new_at]
    simp [Data.zero]
  · intro p
    rw [ha.head]
    show (Sym.new.nodeD p).head = 0
    rw [new_at]; rfl
  · intro p loc
    rw [ha.count]
    show (Sym.new.nodeD p).pos.countAt loc = 0
    rw [new_at]; rfl
  · intro p loc
    rw [ha.inst]
    show (Sym.new.nodeD p).pos.instAt loc = 0
    rw [new_at]; rfl
  · intro p loc n v hv
    rw [ha.target] at hv
    split at hv
    · rename_i hc
      cases hv
      exact ⟨H, h, [], rfl, hin, hc.1, hc.2, rfl⟩
    · rw [target?_nodeD, new_at] at hv
      cases hv
  · intro pre x post p loc heq hx hl _
    obtain ⟨rfl, rfl, rfl⟩ := hfirst heq hx
    rw [ha.target, if_pos ⟨hl, rfl⟩]
  · intro p d loc hd hloc
    have h1 : hasLoc (addHint (stack h.addr) (nameOf pol H h) (asUnsigned h.delta) none) p loc = true := by
      unfold hasLoc; rw [hd]; exact hloc
    rw [ha.locs, hasLoc_nodeD, new_at, Bool.or_eq_true] at h1
    rcases h1 with h1 | h1
    · cases h1
    · exact ⟨h, by simp, hin, h1⟩

/-- A hint that is not for the function. -/
theorem profile_other (stack : Nat → List Frame) (pol : Policy) (H : List Hint) (e : Nat × Name × Nat) (s : Sym)
    (hp : HintProfile stack pol H e s) (h : Hint) (hout : ¬ In e h) : HintProfile stack pol (H ++ [h]) e s := by
  have hsp : ∀ {pre x post}, H ++ [h] = pre ++ x :: post → In e x → ∃ post', post = post' ++ [h] ∧ H = pre ++ x :: post' := by
    intro pre x post heq hx
    rcases split_snoc heq with ⟨_, _, rfl⟩ | h2
    · exact absurd hx hout
    · exact h2
  have hmem : ∀ {x}, x ∈ H ++ [h] → In e x → x ∈ H := by
    intro x hx hi
    rcases List.mem_append.1 hx with hx | hx
    · exact hx
    · rw [List.mem_singleton] at hx; subst hx; exact absurd hi hout
  refine ⟨?_, ?_, hp.head, hp.count, hp.inst, ?_, ?_, ?_⟩
  · intro p
    rw [hp.nodes]
    constructor
    · rintro (h1 | ⟨x, hx, h2⟩)
      · exact .inl h1
      · exact .inr ⟨x, List.mem_append_left _ hx, h2⟩
    · rintro (h1 | ⟨x, hx, h2, h3⟩)
      · exact .inl h1
      · exact .inr ⟨x, hmem hx h2, h2, h3⟩
  · intro pre x post heq hx hno
    obtain ⟨post', _, h2⟩ := hsp heq hx
    exact hp.total pre x post' h2 hx hno
  · intro p loc n v hv
    obtain ⟨pre, x, post, h1, h2⟩ := hp.sound p loc n v hv
    exact ⟨pre, x, post ++ [h], by rw [h1]; simp, h2⟩
  · intro pre x post p loc heq hx hl hlater
    obtain ⟨post', rfl, h2⟩ := hsp heq hx
    apply hp.complete pre x post' p loc h2 hx hl
    intro mid y post'' h3 hy hyl
    exact hlater mid y (post'' ++ [h]) (by rw [h3]; simp) hy hyl
  · intro p d loc hd hloc
    obtain ⟨x, hx, h2⟩ := hp.locs p d loc hd hloc
    exact ⟨x, List.mem_append_left _ hx, h2⟩

theorem symOf_profile (syms : AddrMap) (stack : Nat → List Frame) (pol : Policy) (e : Nat × Name × Nat)
    (he : ∀ h, (symbolInfo syms h).map Prod.fst = some e.2.1 ↔ e.1 ≤ h ∧ h < e.1 + e.2.2) (H : List Hint) :
    ((∀ h ∈ H, ¬ In e h) ∧ symOf syms stack pol H.reverse e.2.1 = none) ∨
    (∃ h ∈ H, In e h) ∧ ∃ s, symOf syms stack pol H.reverse e.2.1 = some s ∧ s.WF ∧ HintProfile stack pol H e s := by
  induction H using List.reverseRecOn with
  | nil => exact .inl ⟨fun h hh => (by cases hh), rfl⟩
  | append_singleton H h ih =>
    rw [List.reverse_append, List.reverse_singleton, List.singleton_append]
    unfold symOf
    rw [nameOf_reverse]
    by_cases hin : In e h
    · right
      rw [if_pos ((he h.addr).2 hin)]
      refine ⟨⟨h, by simp, hin⟩, _, rfl, ?_⟩
      rcases ih with ⟨h1, h2⟩ | ⟨h1, s, h2, h3, h4⟩
      · rw [h2]
        exact ⟨addHint_WF _ _ _ _ (fun s hs => by cases hs), profile_first stack pol H e h1 h hin⟩
      · rw [h2]
        exact ⟨addHint_WF _ _ _ _ (fun s' hs => by cases hs; exact h3), profile_snoc stack pol H e s h3 h4 h1 h hin⟩
    · rw [if_neg (fun hc => hin ((he h.addr).1 hc))]
      rcases ih with ⟨h1, h2⟩ | ⟨⟨x, hx, hx'⟩, s, h2, h3, h4⟩
      · left
        refine ⟨?_, h2⟩
        intro x hx
        rcases List.mem_append.1 hx with hx | hx
        · exact h1 x hx
        · rw [List.mem_singleton] at hx; subst hx; exact hin
      · right
        exact ⟨⟨x, List.mem_append_left _ hx, hx'⟩, s, h2, h3, profile_other stack pol H e s h4 h hin⟩

/-! ## The loop -/

/-- The state of the loop after the hints `R` (the last one first). -/
structure Loop (U : Name → Prop) (syms : AddrMap) (stack : Nat → List Frame) (al : Name → List Name) (pol : Policy) (R : List Hint)
    (x : Store × OMap Nat Nat) : Prop where
  sim : ∃ m, Sim U al x.1 m ∧ ∀ f, OMap.find? m f = symOf syms stack pol R f
  sorted : OMap.Sorted x.2
  idx : ∀ h, (symbolInfo syms h.addr).isSome = true → (OMap.find? x.2 h.addr).getD 0 = number R h % 256

variable {U : Name → Prop} {al : Name → List Name}

theorem ensure_target (hU : AlOk U al) (pol : Policy) {st : Store} {m : SymMap} (h : Sim U al st m) (n : Name) (hn : U n)
    (stack : List Frame) (tgt : Name) (v : Nat) :
    ∃ st', ((ensureEntry al stack st n).bind fun y =>
      (if y.2 then y.1.addIndirectCallTarget pol n stack tgt v .afdoProfile else some y.1)) = some st' ∧
      ∃ m', Sim U al st' m' ∧ ∀ f, OMap.find? m' f =
        if f = n then some (addHint stack (originalName pol tgt) v (OMap.find? m n)) else OMap.find? m f := by
  have hset : ∀ (m : SymMap) (s : Sym), OMap.Sorted m → ∀ f, OMap.find? (OMap.set n s m) f =
      if f = n then some s else OMap.find? m f := by
    intro m s hs f; unfold OMap.set; rw [OMap.find?_upsert hs]; by_cases hf : f = n <;> simp [hf]
  have hemp : ∀ f, OMap.find? (OMap.emplace n Sym.new m) f =
      if f = n then some ((OMap.find? m n).getD Sym.new) else OMap.find? m f := by
    intro f; unfold OMap.emplace; rw [OMap.find?_upsert h.sorted]; by_cases hf : f = n <;> simp [hf]
  unfold ensureEntry
  cases hm : OMap.find? m n with
  | some s =>
    obtain ⟨i, hi, _⟩ := h.prim n s hm
    rw [hi]
    simp only [Option.isSome_some, if_true, Option.bind_some]
    have ht := h.target hU pol n hn stack tgt v .afdoProfile
    unfold SymbolMap.addIndirectCallTarget at ht
    cases stack with
    | nil =>
      refine ⟨st, rfl, m, h, ?_⟩
      intro f
      by_cases hf : f = n
      · rw [hf, if_pos rfl, hm]; rfl
      · rw [if_neg hf]
    | cons f0 t =>
      rw [hm] at ht
      simp only [Option.map_some] at ht
      cases hr : st.addIndirectCallTarget pol n (f0 :: t) tgt v .afdoProfile with
      | none => rw [hr] at ht; exact ht.elim
      | some st' =>
        rw [hr] at ht
        refine ⟨st', rfl, _, ht, ?_⟩
        intro f
        rw [hset m _ h.sorted]
        rfl
  | none =>
    rw [(h.none_iff hU hn).2 hm]
    simp only [Option.isSome_none, Bool.false_eq_true, if_false]
    have hadd := h.add hU n hn
    rw [hm] at hemp
    cases stack with
    | nil =>
      refine ⟨st.addSymbol al n, rfl, _, hadd, ?_⟩
      intro f
      rw [hemp]
      rfl
    | cons f0 t =>
      simp only [List.isEmpty_cons, Bool.false_eq_true, if_false]
      have hup := hadd.update hU n hn (Sym.addAlong (0 + 1) id (walk DataSource.afdoProfile.needConversion (f0 :: t).reverse))
        (fun s hs => addAlong_WF _ _ (fun _ h1 h2 => ⟨h1, h2⟩) _ _ hs)
      rw [hemp, if_pos rfl] at hup
      simp only [Option.getD_none, Option.map_some] at hup
      cases hr : (st.addSymbol al n).update n
          (Sym.addAlong (0 + 1) id (walk DataSource.afdoProfile.needConversion (f0 :: t).reverse)) with
      | none => rw [hr] at hup; exact hup.elim
      | some st1 =>
        rw [hr] at hup
        simp only [Option.map_some, Option.bind_some, if_true]
        have hup : Sim U al st1 _ := hup
        have ht := hup.target hU pol n hn (f0 :: t) tgt v .afdoProfile
        unfold SymbolMap.addIndirectCallTarget at ht
        rw [hset _ _ hadd.sorted, if_pos rfl] at ht
        simp only [Option.map_some] at ht
        cases hr2 : st1.addIndirectCallTarget pol n (f0 :: t) tgt v .afdoProfile with
        | none => rw [hr2] at ht; exact ht.elim
        | some st' =>
          rw [hr2] at ht
          refine ⟨st', rfl, _, ht, ?_⟩
          intro f
          rw [hset _ _ hup.sorted, hset _ _ hadd.sorted, hemp]
          by_cases hf : f = n
          · rw [if_pos hf, if_pos hf]; rfl
          · simp only [if_neg hf]

theorem convertStep_loop (hU : AlOk U al) (syms : AddrMap) (hsy : ∀ e ∈ syms, U e.2.1) (stack : Nat → List Frame) (pol : Policy)
    (R : List Hint) (x : Store × OMap Nat Nat) (hx : Loop U syms stack al pol R x) (h : Hint) :
    ∃ x', convertStep syms stack al pol x h = some x' ∧ Loop U syms stack al pol (h :: R) x' := by
  obtain ⟨⟨m, hsim, hm⟩, hsort, hidx⟩ := hx
  unfold convertStep
  cases hs : symbolInfo syms h.addr with
  | none =>
    refine ⟨x, rfl, ⟨m, hsim, ?_⟩, hsort, ?_⟩
    · intro f
      rw [hm]
      simp [symOf, hs]
    · intro h' hh'
      rw [hidx h' hh']
      unfold number
      rw [List.countP_cons_of_neg]
      intro hc
      rw [decide_eq_true_eq] at hc
      rw [← hc, hs] at hh'
      cases hh'
  | some q =>
    obtain ⟨n, a, b⟩ := q
    have hn : U n := by
      unfold symbolInfo at hs
      cases hf : OMap.floor? syms h.addr with
      | none => rw [hf] at hs; cases hs
      | some e =>
        obtain ⟨s, n', size⟩ := e
        rw [hf] at hs
        simp only at hs
        split at hs
        · cases hs
          exact hsy _ (OMap.floor?_mem hf).1
        · cases hs
    have hi : (OMap.find? x.2 h.addr).getD 0 = number R h % 256 := hidx h (by rw [hs]; rfl)
    simp only
    rw [hi]
    obtain ⟨st', h1, m', h2, h3⟩ := ensure_target hU pol hsim n hn (stack h.addr) (targetName h.type (number R h % 256))
      (asUnsigned h.delta)
    refine ⟨(st', OMap.set h.addr ((number R h % 256 + 1) % 256) x.2), ?_, ⟨m', h2, ?_⟩, ?_, ?_⟩
    · rw [Option.bind_eq_some_iff] at h1
      obtain ⟨y, hy, h1⟩ := h1
      rw [hy, Option.bind_some, h1]
      rfl
    · intro f
      rw [h3]
      unfold symOf
      rw [hs]
      simp only [Option.map_some, Option.some.injEq]
      by_cases hf : f = n
      · rw [if_pos hf, if_pos hf.symm, hm, hf]; rfl
      · rw [if_neg hf, if_neg (fun hc => hf hc.symm), hm]
    · exact OMap.Sorted.upsert hsort _ _
    · intro h' hh'
      unfold OMap.set
      rw [OMap.find?_upsert hsort]
      by_cases hc : h'.addr = h.addr
      · rw [if_pos hc, Option.getD_some]
        have h4 : number (h :: R) h' = number R h + 1 := by
          unfold number
          rw [List.countP_cons_of_pos (by rw [decide_eq_true_eq]; exact hc.symm), hc]
        rw [h4]
        omega
      · rw [if_neg hc, hidx h' hh']
        unfold number
        rw [List.countP_cons_of_neg]
        rw [decide_eq_true_eq]
        exact fun h => hc h.symm

theorem convert_loop (hU : AlOk U al) (syms : AddrMap) (hsy : ∀ e ∈ syms, U e.2.1) (stack : Nat → List Frame) (pol : Policy)
    (H : List Hint) (R : List Hint) (x : Store × OMap Nat Nat) (hx : Loop U syms stack al pol R x) :
    ∃ x', H.foldlM (convertStep syms stack al pol) x = some x' ∧ Loop U syms stack al pol (H.reverse ++ R) x' := by
  induction H generalizing R x with
  | nil => exact ⟨x, rfl, hx⟩
  | cons h t ih =>
    obtain ⟨x1, h1, h2⟩ := convertStep_loop hU syms hsy stack pol R x hx h
    obtain ⟨x2, h3, h4⟩ := ih (h :: R) x1 h2
    refine ⟨x2, ?_, ?_⟩
    · rw [foldlM_cons', h1]
      exact h3
    · rw [List.reverse_cons, List.append_assoc]
      exact h4

/-- **C75 (conversion).** For every symbol table as in C69, all inline stacks and every list of hints: the names in the profile are
those of the functions with hints; all names of a function have one symbol, and different functions have different symbols; the
symbol of a function has its hints and nothing else (`HintProfile`). -/
theorem convert_hints (b : Bin) (hb : BinOk b) (al : Name → List Name) (ha : AliasOk b al) (pol : Policy) (H : List Hint) :
    ∃ st, convert b.syms b.stack al pol H = some st ∧ st.Inv ∧
      (∀ n, (OMap.find? st.map n).isSome = true ↔ ∃ e ∈ b.syms, (∃ h ∈ H, In e h) ∧ IsName al e.2.1 n) ∧
      (∀ e ∈ b.syms, (∃ h ∈ H, In e h) → ∃ i, HintProfile b.stack pol H e (st.heap i) ∧
        ∀ n, IsName al e.2.1 n → OMap.find? st.map n = some i) ∧
      ∀ e ∈ b.syms, ∀ e' ∈ b.syms, (∃ h ∈ H, In e h) → (∃ h ∈ H, In e' h) → e ≠ e' →
        OMap.find? st.map e.2.1 ≠ OMap.find? st.map e'.2.1 := by
  have hU : AlOk (fun n => ∃ e ∈ b.syms, e.2.1 = n) al := by
    constructor
    · rintro n n' ⟨e, he, rfl⟩ ⟨e', he', rfl⟩ h
      exact ha.prim e he e' he' h
    · rintro n n' a ⟨e, he, rfl⟩ ⟨e', he', rfl⟩ h h'
      exact ha.other e he e' he' a h h'
  have he : ∀ e ∈ b.syms, ∀ h, (symbolInfo b.syms h).map Prod.fst = some e.2.1 ↔ e.1 ≤ h ∧ h < e.1 + e.2.2 := by
    intro e hes h
    constructor
    · intro hm
      rw [Option.map_eq_some_iff] at hm
      obtain ⟨⟨n, x, y⟩, h1, h2⟩ := hm
      simp only at h2
      subst h2
      obtain ⟨size, h3, rfl, h4, h5⟩ := (symbol_lookup_iff b.syms hb.sorted hb.disjoint h _ _ _).1 h1
      have := hb.unique h3 hes rfl
      rw [← this]
      exact ⟨h4, h5⟩
    · rintro ⟨h1, h2⟩
      rw [(symbol_lookup_iff b.syms hb.sorted hb.disjoint h e.2.1 e.1 (e.1 + e.2.2)).2 ⟨e.2.2, hes, rfl, h1, h2⟩]
      rfl
  obtain ⟨x, h1, hx⟩ := convert_loop hU b.syms (fun e he => ⟨e, he, rfl⟩) b.stack pol H [] (⟨[], fun _ => Sym.new, 0⟩, [])
    ⟨⟨[], by
      refine ⟨⟨OMap.sorted_nil, ?_, ?_⟩, OMap.sorted_nil, ?_, ?_, ?_, ?_, ?_⟩ <;> intros <;> simp_all [OMap.find?], fun _ => rfl⟩,
      OMap.sorted_nil, fun _ _ => rfl⟩
  rw [List.append_nil] at hx
  obtain ⟨⟨m, hs, hm⟩, _, _⟩ := hx
  have hsome : ∀ e ∈ b.syms, (∃ h ∈ H, In e h) → ∃ s, OMap.find? m e.2.1 = some s ∧ HintProfile b.stack pol H e s := by
    rintro e hes ⟨h, hh, hi⟩
    rcases symOf_profile b.syms b.stack pol e (he e hes) H with ⟨h2, _⟩ | ⟨_, s, h2, _, h3⟩
    · exact absurd hi (h2 h hh)
    · exact ⟨s, by rw [hm]; exact h2, h3⟩
  refine ⟨x.1, by unfold convert; rw [h1]; rfl, hs.inv, ?_, ?_, ?_⟩
  · intro n
    constructor
    · intro hn
      obtain ⟨i, hi⟩ := Option.isSome_iff_exists.1 hn
      obtain ⟨f, s, h2, _, h3⟩ := hs.only n i hi
      obtain ⟨e, hes, rfl⟩ := hs.dom f s h2
      refine ⟨e, hes, ?_, h3⟩
      rcases symOf_profile b.syms b.stack pol e (he e hes) H with ⟨_, h4⟩ | ⟨h4, _⟩
      · rw [hm, h4] at h2; cases h2
      · exact h4
    · rintro ⟨e, hes, hh, hn⟩
      obtain ⟨s, h2, _⟩ := hsome e hes hh
      obtain ⟨i, h3, _⟩ := hs.prim _ s h2
      rcases hn with rfl | hn
      · rw [h3]; rfl
      · rw [hs.ali _ s n h2 hn, h3]; rfl
  · intro e hes hh
    obtain ⟨s, h2, h3⟩ := hsome e hes hh
    obtain ⟨i, h4, h5⟩ := hs.prim _ s h2
    refine ⟨i, h5 ▸ h3, ?_⟩
    intro n hn
    rcases hn with rfl | hn
    · exact h4
    · rw [hs.ali _ s n h2 hn, h4]
  · intro e hes e' hes' hh hh' hne heq
    obtain ⟨s, h2, _⟩ := hsome e hes hh
    obtain ⟨s', h2', _⟩ := hsome e' hes' hh'
    obtain ⟨i, h4, _⟩ := hs.prim _ s h2
    have := hs.inj _ _ s s' i h2 h2' h4 (heq ▸ h4)
    exact hne (hb.unique hes hes' this)

/-! ## No hint is lost -/

theorem printNum_bytes (n : Nat) : ∀ c ∈ printNum 10 n, ∃ d, d < 10 ∧ c = Sample.digitChar d := by
  induction n using Nat.strong_induction_on with
  | _ n ih =>
    rw [printNum]
    split
    · rename_i h
      intro c hc
      rw [List.mem_singleton] at hc
      exact ⟨n, by omega, hc⟩
    · rename_i h
      intro c hc
      rw [List.mem_append, List.mem_singleton] at hc
      rcases hc with hc | hc
      · exact ih (n / 10) (by omega) c hc
      · exact ⟨n % 10, by omega, hc⟩

theorem digit_byte : ∀ d, d < 10 → UInt8.ofNat (Sample.digitChar d).toNat ≠ 95 ∧ UInt8.ofNat (Sample.digitChar d).toNat ≠ 46 := by
  decide

theorem digit_byte_inj : ∀ d, d < 10 → ∀ d', d' < 10 →
    UInt8.ofNat (Sample.digitChar d).toNat = UInt8.ofNat (Sample.digitChar d').toNat → d = d' := by
  decide

/-- A byte of a character. -/
def byte (c : Char) : UInt8 := UInt8.ofNat c.toNat

theorem printNum_bytes_inj (a b : Nat) (ha : a < 2 ^ 64) (hb : b < 2 ^ 64)
    (h : (printNum 10 a).map byte = (printNum 10 b).map byte) : a = b := by
  have hl : ∀ l l' : List Char, (∀ c ∈ l, ∃ d, d < 10 ∧ c = Sample.digitChar d) → (∀ c ∈ l', ∃ d, d < 10 ∧ c = Sample.digitChar d) →
      l.map byte = l'.map byte → l = l' := by
    intro l
    induction l with
    | nil =>
      intro l' _ _ h
      cases l' with
      | nil => rfl
      | cons c t => cases h
    | cons c t ih =>
      intro l' h1 h2 h
      cases l' with
      | nil => cases h
      | cons c' t' =>
        simp only [List.map_cons, List.cons.injEq] at h
        obtain ⟨d, hd, rfl⟩ := h1 c List.mem_cons_self
        obtain ⟨d', hd', rfl⟩ := h2 c' List.mem_cons_self
        rw [digit_byte_inj d hd d' hd' h.1,
          ih t' (fun x hx => h1 x (List.mem_cons_of_mem _ hx)) (fun x hx => h2 x (List.mem_cons_of_mem _ hx)) h.2]
  have h1 := hl _ _ (printNum_bytes a) (printNum_bytes b) h
  have h2 := Sample.scanNum_printNum 10 (.inl rfl) a ha [] trivial
  have h3 := Sample.scanNum_printNum 10 (.inl rfl) b hb [] trivial
  rw [h1, h3] at h2
  injection h2 with h2
  injection h2 with h2 _
  exact h2.symm

theorem takeWhile_digits (l x y : List UInt8) (hl : ∀ c ∈ l, c ≠ 95) (hy : y = l ++ 95 :: x) : y.takeWhile (· != 95) = l := by
  rw [hy, List.takeWhile_append_of_pos (by intro c hc; simpa using hl c hc)]
  simp

/-- The number can be read off a name. -/
theorem targetName_number (t t' : List Char) (i j : Nat) (hi : i < 2 ^ 64) (hj : j < 2 ^ 64) (h : targetName t i = targetName t' j) :
    i = j := by
  have hrev : ∀ t i, (targetName t i).reverse.takeWhile (· != 95) = ((printNum 10 i).map byte).reverse := by
    intro t i
    apply takeWhile_digits _ (("__prefetch_".toList ++ t).map byte).reverse
    · intro c hc
      rw [List.mem_reverse, List.mem_map] at hc
      obtain ⟨x, hx, rfl⟩ := hc
      obtain ⟨d, hd, rfl⟩ := printNum_bytes i x hx
      exact (digit_byte d hd).1
    · unfold targetName
      rw [show (fun c : Char => UInt8.ofNat c.toNat) = byte from rfl]
      simp only [List.map_append, List.reverse_append]
      simp [byte]
  have h1 := hrev t i
  rw [h, hrev t' j] at h1
  exact (printNum_bytes_inj j i hj hi (List.reverse_injective h1)).symm

theorem targetName_plain (pol : Policy) (t : List Char) (ht : ∀ c ∈ t, byte c ≠ dot) (i : Nat) :
    originalName pol (targetName t i) = targetName t i := by
  apply original_name_of_no_dot
  unfold targetName
  rw [show (fun c : Char => UInt8.ofNat c.toNat) = byte from rfl]
  simp only [List.map_append, List.mem_append, not_or]
  refine ⟨⟨⟨by decide, ?_⟩, by decide⟩, ?_⟩
  · intro hc
    obtain ⟨c, hc, h⟩ := List.mem_map.1 hc
    exact ht c hc h
  · intro hc
    obtain ⟨c, hc, h⟩ := List.mem_map.1 hc
    obtain ⟨d, hd, rfl⟩ := printNum_bytes i c hc
    exact (digit_byte d hd).2 h

theorem number_append (x y : List Hint) (h : Hint) : number (x ++ y) h = number x h + number y h := by
  unfold number; rw [List.countP_append]

theorem number_self (t : List Hint) (h : Hint) : number (h :: t) h = number t h + 1 := by
  unfold number; rw [List.countP_cons_of_pos (by simp)]

/-- **C75 (no hint is lost).** If there are at most 256 hints for an instruction, no type contains a dot, and no two instructions
with hints in the function have the same place in the source, every hint of the function whose instruction has debug information
is a call target there: `__prefetch_<type>_<number>`, with the delta as a number of 64 bits. -/
theorem HintProfile.all {stack : Nat → List Frame} {pol : Policy} {H : List Hint} {e : Nat × Name × Nat} {s : Sym}
    (hp : HintProfile stack pol H e s) (hfew : ∀ h ∈ H, In e h → number H h ≤ 256) (hdot : ∀ h ∈ H, ∀ c ∈ h.type, byte c ≠ dot)
    (hsite : ∀ h ∈ H, ∀ h' ∈ H, In e h → In e h' → ∀ p loc, lands false (stack h.addr) p loc = true →
      lands false (stack h'.addr) p loc = true → h.addr = h'.addr)
    (pre : List Hint) (h : Hint) (post : List Hint) (heq : H = pre ++ h :: post) (hin : In e h) (p : List Callsite) (loc : Nat)
    (hl : lands false (stack h.addr) p loc = true) :
    target? s p loc (targetName h.type (number pre h)) = some (asUnsigned h.delta) := by
  have hname : ∀ pre h post, H = pre ++ h :: post → In e h →
      number pre h < 256 ∧ nameOf pol pre h = targetName h.type (number pre h) := by
    intro pre h post heq hin
    have hmem : h ∈ H := by rw [heq]; simp
    have h1 := hfew h hmem hin
    rw [heq, number_append, number_self] at h1
    have h2 : number pre h < 256 := by omega
    refine ⟨h2, ?_⟩
    unfold nameOf
    rw [Nat.mod_eq_of_lt h2, targetName_plain pol _ (hdot h hmem)]
  obtain ⟨hb, hn⟩ := hname pre h post heq hin
  rw [← hn]
  apply hp.complete pre h post p loc heq hin hl
  intro mid x post' hpost hx hxl hc
  have heq' : H = (pre ++ h :: mid) ++ x :: post' := by rw [heq, hpost]; simp
  obtain ⟨hb', hn'⟩ := hname _ x post' heq' hx
  rw [hn, hn'] at hc
  have hij := targetName_number _ _ _ _ (by omega) (by omega) hc
  have haddr : x.addr = h.addr :=
    hsite x (by rw [heq']; simp) h (by rw [heq]; simp) hx hin p loc hxl hl
  have hsame : ∀ l, number l x = number l h := by
    intro l; unfold number; rw [haddr]
  rw [hsame, number_append, number_self] at hij
  omega

/-- The function is written if there is debug information for its first hint (the threshold is 0). -/
theorem HintProfile.written {stack : Nat → List Frame} {pol : Policy} {H : List Hint} {e : Nat × Name × Nat} {s : Sym}
    (hp : HintProfile stack pol H e s) (pre : List Hint) (h : Hint) (post : List Hint) (heq : H = pre ++ h :: post) (hin : In e h)
    (hno : ∀ x ∈ pre, ¬ In e x) : Threshold.shouldEmit 0 (s.totalAt []) = true ↔ stack h.addr ≠ [] := by
  rw [hp.total pre h post heq hin hno]
  unfold through Threshold.shouldEmit
  cases stack h.addr <;> simp

/-- The delta can be recovered. -/
theorem delta_recovered (d : Int) (hl : - 2 ^ 63 ≤ d) (hh : d < 2 ^ 63) : (BitVec.ofNat 64 (asUnsigned d)).toInt = d := by
  unfold asUnsigned
  rw [BitVec.toInt_eq_toNat_bmod, BitVec.toNat_ofNat, Int.bmod_def]
  omega

/-! ## From the file -/

variable {path bs : List Nat}

/-- **C75.** For every program file (`Program` of C70) and every file of hints: the profile is created.  Before the elision of
suffixes its names are those of the functions with hints, all names of a function have one symbol, and that symbol has the hints
of the function, at the inline stacks of their instructions (`HintProfile`), and nothing else.  If no name has a suffix to be
elided, that is what is given to the writer. -/
theorem create_prefetch (g : Pipeline.Program path bs) (H : List Hint) (hf : ∀ h ∈ H, h.Fits) (tail : List Char)
    (ht : scanHint tail = none) (hs : skipWs tail = tail) (pol : Policy) :
    ∃ (stack : Nat → List Frame) (st st' : Store),
      (∀ a, a < g.hi → ∃ fs, g.StackAt a fs ∧ List.Forall₂ Pipeline.SameFrame fs (stack a)) ∧ st.Inv ∧
      createPrefetch path (some bs) (some (H.flatMap line ++ tail)) pol = some (some st') ∧ elide pol st = some st' ∧
      ((∀ e a, g.HasFn e → g.NameAt e.1 a → originalName pol a = a) → st' = st) ∧
      (∀ n, (OMap.find? st.map n).isSome = true ↔ ∃ e, g.HasFn e ∧ (∃ h ∈ H, In e h) ∧ g.NameAt e.1 n) ∧
      ∀ e, g.HasFn e → (∃ h ∈ H, In e h) →
        ∃ i, HintProfile stack pol H e (st.heap i) ∧ ∀ n, g.NameAt e.1 n → OMap.find? st.map n = some i := by
  obtain ⟨m, l, p, hm, hl, hp, hIs, hbin, hal, hfn, hnm, _, hst⟩ := Pipeline.program_bin g
  obtain ⟨st, h1, h2, h3, h4, _⟩ := convert_hints (Pipeline.binOf m l p) hbin (Pipeline.aliasesOf m) hal pol H
  obtain ⟨st', h5, _⟩ := elide_conserves pol st h2
  refine ⟨(Pipeline.binOf m l p).stack, st, st', hIs.stack, h2, ?_, h5, ?_, ?_, ?_⟩
  · unfold createPrefetch
    rw [hm, Option.bind_some, hp, Option.bind_some]
    simp only
    rw [read_hints H hf tail ht hs, Option.bind_some]
    have hok : stacksOk m p H = true := by
      unfold stacksOk
      rw [List.all_eq_true]
      intro h hh
      cases hsi : symbolInfo m.map h.addr with
      | none => rfl
      | some q =>
        obtain ⟨n, a, b⟩ := q
        obtain ⟨size, h6, rfl, h7, h8⟩ := (symbol_lookup_iff m.map hbin.sorted hbin.disjoint h.addr _ _ _).1 hsi
        rw [(hst _ h6 h.addr h7 h8).2]
        simp
    have h1' : convert m.map (fun a => ((p.stack a).getD []).map Pipeline.toFrame) (Pipeline.aliasesOf m) pol H = some st := h1
    rw [if_pos hok, h1', Option.bind_some, h5]
    rfl
  · intro hno
    have := alias_elide pol st (by
      intro n hn
      obtain ⟨e, he, _, h⟩ := (h3 n).1 hn
      exact hno e n ((hfn e).1 he) ((hnm e he n).1 h))
    rw [h5] at this
    exact Option.some.inj this
  · intro n
    rw [h3 n]
    constructor
    · rintro ⟨e, he, hf, h⟩
      exact ⟨e, (hfn e).1 he, hf, (hnm e he n).1 h⟩
    · rintro ⟨e, he, hf, h⟩
      exact ⟨e, (hfn e).2 he, hf, (hnm e ((hfn e).2 he) n).2 h⟩
  · intro e he hh
    obtain ⟨i, h6, h7⟩ := h4 e ((hfn e).2 he) hh
    exact ⟨i, h6, fun n hn => h7 n ((hnm e ((hfn e).2 he) n).2 hn)⟩

/-- A file that cannot be opened is a file without hints: the empty profile is written, without an error. -/
theorem missing_file (g : Pipeline.Program path bs) (pol : Policy) :
    ∃ st, createPrefetch path (some bs) none pol = some (some st) ∧ st.map = [] := by
  obtain ⟨m, l, p, hm, hl, hp, _⟩ := Pipeline.program_bin g
  refine ⟨⟨[], fun _ => Sym.new, 0⟩, ?_, rfl⟩
  unfold createPrefetch
  rw [hm, Option.bind_some, hp, Option.bind_some]
  rfl

/-! ## Examples and witnesses -/

/-- Two hints for one instruction, one for another, one with a negative delta. -/
def exHints : List Hint := [⟨0x1000, 64, "NTA".toList⟩, ⟨0x1000, 128, "T0".toList⟩, ⟨0x1004, -8, "NTA".toList⟩]

theorem exHints_fit : ∀ h ∈ exHints, h.Fits := by
  intro h hh
  simp only [exHints, List.mem_cons, List.not_mem_nil, or_false] at hh
  rcases hh with rfl | rfl | rfl <;>
    exact ⟨by decide, by decide, by decide, by decide, by decide, by decide⟩

/-- `create_prefetch` applies to the program of C70; `main` and `f` are in the profile, as one symbol. -/
theorem exPrefetch_created : ∃ st i, createPrefetch Elf.exPath (some Elf.exFile) (some (exHints.flatMap line)) .none =
    some (some st) ∧ OMap.find? st.map (Elf.toName (Elf.str "main")) = some i := by
  obtain ⟨stack, st, st', _, _, h1, _, h2, h3, _⟩ := create_prefetch Pipeline.exProgram exHints exHints_fit [] rfl rfl .none
  have := h2 fun e a _ _ => rfl
  subst this
  rw [List.append_nil] at h1
  have hmain : Pipeline.exProgram.HasFn (0x1000, Elf.toName (Elf.str "main"), 10) := by
    refine ⟨[Elf.exSyms[0]], Elf.exSyms[1], [Elf.exSyms[2], Elf.exSyms[3], Elf.exSyms[4]], rfl, ?_, ?_, by decide, rfl, rfl⟩
    · refine ⟨by decide, .inr ⟨by decide, .inl (by decide), ?_⟩⟩
      rw [← Elf.hasSuffix_iff]
      decide
    · intro z hz
      rw [List.mem_singleton] at hz
      subst hz
      intro hk
      exact absurd rfl hk.1
  have hname : Pipeline.exProgram.NameAt 0x1000 (Elf.toName (Elf.str "main")) := by
    obtain ⟨pre, y, post, e1, e2, _, e3, e4, _⟩ := hmain
    exact ⟨y, by rw [e1]; simp, e2, e3, e4⟩
  obtain ⟨i, hi⟩ := Option.isSome_iff_exists.1 ((h3 _).2 ⟨_, hmain, ⟨⟨0x1000, 64, "NTA".toList⟩, by simp [exHints], by decide⟩, hname⟩)
  exact ⟨st', i, h1, hi⟩

/-- A function of 16 bytes; its first instruction has no debug information, the others are on different lines but for the last
two. -/
def wStack (a : Nat) : List Frame :=
  if a = 0x100 then [] else if a < 0x10e then [⟨[97], 1, BitVec.ofNat 32 a, 0⟩] else [⟨[97], 1, 0x200, 0⟩]

def wSyms : AddrMap := [(0x100, [97], 16)]

def wRun (H : List Hint) : Option Store := (convert wSyms wStack (fun _ => []) .all H).bind (elide .all)

/-- C75 violated: if the first hint of a function is for an instruction without debug information, the symbol of the function has
no samples, and all hints of the function are dropped when the profile is written. -/
theorem first_hint_violated :
    (wRun [⟨0x100, 1, "T0".toList⟩, ⟨0x102, 64, "T0".toList⟩]).map (fun st =>
      (target? (st.sym [97]) [] (Frame.off ⟨[97], 1, 0x102, 0⟩) (targetName "T0".toList 0),
        Threshold.shouldEmit 0 ((st.sym [97]).totalAt []))) = some (some 64, false) ∧
    (wRun [⟨0x102, 64, "T0".toList⟩, ⟨0x100, 1, "T0".toList⟩]).map (fun st =>
      (target? (st.sym [97]) [] (Frame.off ⟨[97], 1, 0x102, 0⟩) (targetName "T0".toList 0),
        Threshold.shouldEmit 0 ((st.sym [97]).totalAt []))) = some (some 64, true) := by
  constructor <;> decide +kernel

/-- C75 violated: of two hints for two instructions of the same source line only the last one is left; both are number 0. -/
theorem same_line_violated :
    (wRun [⟨0x10e, 64, "T0".toList⟩, ⟨0x10f, 128, "T0".toList⟩]).map (fun st =>
      (target? (st.sym [97]) [] (Frame.off ⟨[97], 1, 0x200, 0⟩) (targetName "T0".toList 0),
        target? (st.sym [97]) [] (Frame.off ⟨[97], 1, 0x200, 0⟩) (targetName "T0".toList 1))) = some (some 128, none) := by
  decide +kernel

/-- 257 hints for one instruction. -/
def wMany : List Hint := ⟨0x102, 1, "T0".toList⟩ :: List.replicate 255 ⟨0x102, 2, "T0".toList⟩ ++ [⟨0x102, 3, "T0".toList⟩]

/-- C75 violated: the number of a hint is kept in 8 bits; the 257th hint for an instruction replaces the first one. -/
theorem many_hints_violated : ∃ st i, convert wSyms wStack (fun _ => []) .all wMany = some st ∧ OMap.find? st.map [97] = some i ∧
    target? (st.heap i) [] (Frame.off ⟨[97], 1, 0x102, 0⟩) (targetName "T0".toList 0) = some 3 ∧
    target? (st.heap i) [] (Frame.off ⟨[97], 1, 0x102, 0⟩) (targetName "T0".toList 256) = none := by
  have hb : BinOk ⟨wSyms, id, wStack, fun _ => 1⟩ := by
    refine ⟨List.pairwise_singleton _ _, ?_, by decide, by decide⟩
    intro a ha b hb
    simp only [wSyms, List.mem_singleton] at ha hb
    subst ha hb
    simp
  obtain ⟨st, h1, _, _, h2, _⟩ := convert_hints ⟨wSyms, id, wStack, fun _ => 1⟩ hb (fun _ => [])
    ⟨fun _ _ _ _ h => by simp at h, fun _ _ _ _ _ h => by simp at h⟩ .all wMany
  obtain ⟨i, hp, hi⟩ := h2 (0x100, [97], 16) (by decide) ⟨⟨0x102, 1, "T0".toList⟩, List.mem_append_left _ List.mem_cons_self, by decide⟩
  refine ⟨st, i, h1, hi _ (.inl rfl), ?_, ?_⟩
  · have h3 := hp.complete (⟨0x102, 1, "T0".toList⟩ :: List.replicate 255 ⟨0x102, 2, "T0".toList⟩) ⟨0x102, 3, "T0".toList⟩ [] []
      (Frame.off ⟨[97], 1, 0x102, 0⟩) rfl (by decide) (by decide) (by
        intro mid x post' h
        simp at h)
    have hn : nameOf .all (⟨0x102, 1, "T0".toList⟩ :: List.replicate 255 ⟨0x102, 2, "T0".toList⟩) ⟨0x102, 3, "T0".toList⟩ =
        targetName "T0".toList 0 := by
      unfold nameOf
      have : number (⟨0x102, 1, "T0".toList⟩ :: List.replicate 255 ⟨0x102, 2, "T0".toList⟩) ⟨0x102, 3, "T0".toList⟩ = 256 := by
        unfold number
        rw [List.countP_cons_of_pos (by decide), List.countP_replicate]
        simp
      rw [this]
      exact targetName_plain .all "T0".toList (by decide) 0
    rw [hn] at h3
    exact h3
  · cases ht : target? (st.heap i) [] (Frame.off ⟨[97], 1, 0x102, 0⟩) (targetName "T0".toList 256) with
    | none => rfl
    | some v =>
      obtain ⟨pre, h, post, h3, _, _, h4, _⟩ := hp.sound _ _ _ _ ht
      have hty : h.type = "T0".toList := by
        have hm : h ∈ wMany := by rw [h3]; simp
        simp only [wMany, List.mem_append, List.mem_cons, List.mem_replicate, List.not_mem_nil, or_false] at hm
        rcases hm with (rfl | ⟨_, rfl⟩) | rfl <;> rfl
      unfold nameOf at h4
      rw [hty, targetName_plain .all _ (by decide)] at h4
      have := targetName_number _ _ _ _ (by decide) (by omega) h4
      omega

/-- C75 violated: a type with a dot is cut off by the elision of suffixes, with the number. -/
theorem dot_violated :
    (wRun [⟨0x102, 64, "T.0".toList⟩]).map (fun st =>
      (target? (st.sym [97]) [] (Frame.off ⟨[97], 1, 0x102, 0⟩) (targetName "T.0".toList 0),
        target? (st.sym [97]) [] (Frame.off ⟨[97], 1, 0x102, 0⟩) (("__prefetch_T".toList).map byte))) = some (none, some 64) := by
  decide +kernel

/-- C75 violated: the deltas of two parts of a function are added up when their suffixes are elided. -/
theorem elided_violated :
    ((convert [(0x100, [97], 16), (0x200, [97, 46, 98], 16)] (fun _ => [⟨[97], 1, 2, 0⟩]) (fun _ => []) .all
      [⟨0x100, 64, "T0".toList⟩, ⟨0x200, 64, "T0".toList⟩]).bind (elide .all)).map (fun st =>
      target? (st.sym [97]) [] (Frame.off ⟨[97], 1, 2, 0⟩) (targetName "T0".toList 0)) = some (some 128) := by
  decide +kernel

/-- A type of five characters is written past the end of the buffer. -/
theorem long_type_violated : readHints (some "1000,64,NTA01\n".toList) = none := by decide +kernel

/-- What follows a bad line is silently dropped. -/
example : readHints (some "1000,64,NTA\nbad\n1004,8,T0\n".toList) = some [⟨0x1000, 64, "NTA".toList⟩] := by decide +kernel

end Verif.Prefetch
