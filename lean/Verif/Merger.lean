import Verif.AfdoMerge
import Verif.Threshold
import Verif.Summary
import Verif.WorkingSet

/-!
# C76: `profile_merger` on AFDO profiles (profile_merger.cc:144-187)

From the bytes of the input files to the bytes of the output file.  File names of symbols are not modelled: the file tables of
the output are arbitrary.
-/
namespace Verif.Merger
open Verif Verif.Gcov Verif.SymbolMap Verif.Afdo

/-- What the readers share: `symbol_map` (functions, timestamps, working set) and `FLAGS_gcov_version`. -/
structure State where
  map : SymMap
  ts : OMap Name Nat
  ws : List (Nat × Nat)
  version : Nat

/-- The version of a file, to which the flag is set (profile_reader.cc:163-164). -/
def fileVersion (b : List UInt8) : Option Nat :=
  (readUnsigned b).bind fun x => (readUnsigned x.2).map Prod.fst

/-- One input (profile_merger.cc:176-178; profile_reader.cc:148-176).  A file that cannot be opened: `gcov_open` returns 0 and not
-1, the first read fails its check of the mode (gcov.cc:76-78, 175). -/
def readInput (pol : Policy) (s : State) : Option (List UInt8) → Option State
  | none => none
  | some b => (readFile true pol s.map s.ts b).bind fun R => (fileVersion b).map fun v =>
    ⟨R.map, R.ts, List.zipWith updateWorkingSet s.ws R.workingSet, v⟩

/-- The entries of `map_`; no aliases without a binary. -/
def entriesOf (m : SymMap) : List Threshold.Entry := m.map fun x => ⟨x.1, x.1, x.2.data.total⟩

/-- The summary that is written (profile_writer.cc:167-182). -/
def summaryOf (threshold : Nat) (m : SymMap) : Summary :=
  ⟨(Summary.compute threshold m Summary.defaultCutoffs).1.total, (Summary.compute threshold m Summary.defaultCutoffs).1.maxCount,
   (Summary.compute threshold m Summary.defaultCutoffs).1.maxFunction, (Summary.compute threshold m Summary.defaultCutoffs).1.numCounts,
   (Summary.compute threshold m Summary.defaultCutoffs).1.numFunctions,
   (Summary.compute threshold m Summary.defaultCutoffs).2.map fun e => (e.cutoff, e.minCount, e.numCounts)⟩

/-- What the writer sees (profile_merger.cc:181-183): the functions above the threshold, in the order of `map_`. -/
def profileOf (num den : Nat) (files : List Name) (fileIdx : Name → Option Nat) (s : State) : Profile :=
  ⟨emitted (Threshold.calculate num den (entriesOf s.map)) (s.map.map fun x => (x.1, ⟨x.2, (OMap.find? s.ts x.1).getD 0⟩)),
   summaryOf (Threshold.calculate num den (entriesOf s.map)) s.map, files, fileIdx, s.ws⟩

/-- `profile_merger` without `--is_llvm` (profile_merger.cc:144-187); `flag` is `--gcov_version`, `num / den` is
`--sample_threshold_frac`. -/
def mergeGcov (pol : Policy) (num den : Nat) (files : List Name) (fileIdx : Name → Option Nat) (flag : Nat)
    (inputs : List (Option (List UInt8))) : Option (List UInt8) :=
  (inputs.foldlM (readInput pol) ⟨[], [], List.replicate 128 (0, 0), flag⟩).bind fun s =>
    writeFile s.version (profileOf num den files fileIdx s)

/-! ## Specification -/

/-- An input: the version, the profile, and the bytes. -/
structure Input where
  version : Nat
  profile : Profile
  bytes : List UInt8

/-- A file written by the AFDO writer, whose names are not rewritten by the writer or the reader (C07). -/
structure Input.Ok (pol : Policy) (x : Input) : Prop where
  version : x.version < 2 ^ 32
  fits : ProfileFits x.profile
  wf : ∀ q ∈ x.profile.syms, q.2.sym.WF
  fix : ∀ n ∈ profileNames x.profile.syms, fixName n = n
  plain : ∀ q ∈ x.profile.syms, ∀ n ∈ symTargets q.2.sym, originalName pol n = n
  written : writeFile x.version x.profile = some x.bytes

/-- The functions of the name `n`, in the order of the inputs. -/
def copies (xs : List Input) (n : Name) : List Sym := xs.filterMap fun x => (OMap.find? x.profile.syms n).map Top.sym

/-- All samples of the function `n`. -/
def total (xs : List Input) (n : Name) : Nat := ((copies xs n).map samples).sum

/-- All samples. -/
def grand (xs : List Input) : Nat := (xs.map fun x => (x.profile.syms.map fun q => samples q.2.sym).sum).sum

/-- The function `s` of the merged profile is the sum of the copies. -/
structure Sums (cs : List Sym) (s : Sym) : Prop where
  head : s.data.head = (cs.map fun c => c.data.head).sum
  total : ∀ path, totalAt s path = (cs.map fun c => samplesAt c path).sum
  count : ∀ path loc, countAt s path loc = (cs.map fun c => countAt c path loc).sum
  /-- The last copy that has the target. -/
  target : ∀ path loc n, targetAt s path loc n = cs.reverse.findSome? fun c => targetAt c path loc n
  /-- The inline instances with locations. -/
  nodes : ∀ path, (s.node? path).isSome = true ↔ path = [] ∨ ∃ c ∈ cs, ∃ u, c.at? path = some u ∧ hasLoc u = true

/-- The inputs together are not too large. -/
structure Small (xs : List Input) : Prop where
  size : (xs.map fun x => x.bytes.length).sum < 2 ^ 32
  samples : grand xs < 2 ^ 64
  heads : (xs.map fun x => (x.profile.syms.map fun q => q.2.sym.data.head).sum).sum < 2 ^ 64
  ws : ∀ i : Nat, (xs.map fun x => ((x.profile.workingSet[i]?).map Prod.snd).getD 0).sum < 2 ^ 64

/-! ## The shape of a merged symbol -/

/-- A callsite that fits. -/
def KeyOk (N : Name → Prop) (k : Callsite) : Prop := LocFits k.1 ∧ N k.2 ∧ k.2 ≠ []

/-- An inline instance as the reader makes it: the total is what is below, there are at most `E` locations, callsites and targets
per location, and everything fits its field. -/
def Local (N : Name → Prop) (E : Nat) (d : Data) (cs : List (Callsite × Sym)) : Prop :=
  d.total = (d.pos.map fun p => p.2.count).sum + (cs.map fun p => p.2.data.total).sum ∧
  d.pos.length ≤ E ∧ cs.length ≤ E ∧
  (∀ p ∈ d.pos, LocFits p.1 ∧ p.2.targets.length ≤ E ∧ ∀ t ∈ p.2.targets, t.2 < 2 ^ 64 ∧ N t.1) ∧
  ∀ p ∈ cs, KeyOk N p.1 ∧ hasLoc p.2 = true

mutual
/-- All instances are. -/
def Good (N : Name → Prop) (E : Nat) : Sym → Prop
  | .mk d cs => Local N E d cs ∧ GoodCalls N E cs
def GoodCalls (N : Name → Prop) (E : Nat) : List (Callsite × Sym) → Prop
  | [] => True
  | (_, s) :: t => Good N E s ∧ GoodCalls N E t
end

theorem goodCalls_iff (N : Name → Prop) (E : Nat) : ∀ cs : List (Callsite × Sym), GoodCalls N E cs ↔ ∀ p ∈ cs, Good N E p.2
  | [] => by simp [GoodCalls]
  | (k, s) :: t => by simp [GoodCalls, goodCalls_iff N E t]

/-- An event that fits. -/
def EvOk (N : Name → Prop) : Ev → Prop
  | .cnt p loc _ => LocFits loc ∧ ∀ k ∈ p, KeyOk N k
  | .tgt p loc n c => LocFits loc ∧ (∀ k ∈ p, KeyOk N k) ∧ c < 2 ^ 64 ∧ N n

theorem upsert_length {K V : Type} [LinearOrder K] (k : K) (f : Option V → V) : ∀ m : OMap K V, (OMap.upsert k f m).length ≤ m.length + 1
  | [] => by simp [OMap.upsert]
  | (k', v) :: t => by
    unfold OMap.upsert
    have := upsert_length k f t
    split
    · simp
    · split <;> simp <;> omega

theorem modifyAt_length {A : Type} (k : Callsite) (f : Option A → A) : ∀ m : List (Callsite × A), (modifyAt m k f).length ≤ m.length + 1
  | [] => by simp [modifyAt]
  | (k', v) :: t => by
    unfold modifyAt
    have := modifyAt_length k f t
    split
    · simp
    · simp; omega

theorem mem_upsert' {K V : Type} [LinearOrder K] (k : K) (f : Option V → V) : ∀ (m : OMap K V) (p : K × V), p ∈ OMap.upsert k f m →
    p ∈ m ∨ p = (k, f none) ∨ ∃ v, (k, v) ∈ m ∧ p = (k, f (some v))
  | [], p, h => by simp [OMap.upsert] at h; exact Or.inr (Or.inl h)
  | (k', v) :: t, p, h => by
    unfold OMap.upsert at h
    split at h
    · simp at h; rcases h with h | h | h
      · exact Or.inr (Or.inl h)
      · exact Or.inl (by simp [h])
      · exact Or.inl (by simp [h])
    · split at h
      · next hk =>
        simp at h
        rcases h with h | h
        · subst hk; exact Or.inr (Or.inr ⟨v, by simp, h⟩)
        · exact Or.inl (by simp [h])
      · simp at h
        rcases h with h | h
        · exact Or.inl (by simp [h])
        · rcases mem_upsert' k f t p h with h | h | ⟨w, h, h'⟩
          · exact Or.inl (by simp [h])
          · exact Or.inr (Or.inl h)
          · exact Or.inr (Or.inr ⟨w, by simp [h], h'⟩)

theorem mem_modifyAt' {A : Type} (k : Callsite) (f : Option A → A) : ∀ (m : List (Callsite × A)) (p : Callsite × A), p ∈ modifyAt m k f →
    p ∈ m ∨ p = (k, f none) ∨ ∃ v, (k, v) ∈ m ∧ p = (k, f (some v))
  | [], p, h => by simp [modifyAt] at h; exact Or.inr (Or.inl h)
  | (k', v) :: t, p, h => by
    unfold modifyAt at h
    split at h
    · next hk =>
      simp at h
      rcases h with h | h
      · subst hk; exact Or.inr (Or.inr ⟨v, by simp, h⟩)
      · exact Or.inl (by simp [h])
    · simp at h
      rcases h with h | h
      · exact Or.inl (by simp [h])
      · rcases mem_modifyAt' k f t p h with h | h | ⟨w, h, h'⟩
        · exact Or.inl (by simp [h])
        · exact Or.inr (Or.inl h)
        · exact Or.inr (Or.inr ⟨w, by simp [h], h'⟩)

theorem sum_modify (loc c : Nat) (g : PInfo → PInfo) (hg : ∀ i, (g i).count = i.count + c) : ∀ m : PosMap,
    ((PosMap.modify m loc g).map fun p => p.2.count).sum = (m.map fun p => p.2.count).sum + c
  | [] => by simp [PosMap.modify, OMap.upsert, hg, PInfo.zero]
  | (k', v) :: t => by
    have ih := sum_modify loc c g hg t
    unfold PosMap.modify at ih ⊢
    unfold OMap.upsert
    split
    · simp [hg, PInfo.zero]; omega
    · split
      · simp [hg]; omega
      · simp [ih]; omega

theorem sum_modifyAt (k : Callsite) (c : Nat) (f : Option Sym → Sym) (hf : ∀ o, (f o).data.total = (o.getD Sym.new).data.total + c) :
    ∀ m : List (Callsite × Sym), ((modifyAt m k f).map fun p => p.2.data.total).sum = (m.map fun p => p.2.data.total).sum + c
  | [] => by
    have := hf none
    simp only [modifyAt, List.map_cons, List.map_nil, List.sum_cons, List.sum_nil, this]
    simp [Sym.new, Sym.data, Data.zero]
  | (k', v) :: t => by
    have ih := sum_modifyAt k c f hf t
    unfold modifyAt
    split
    · simp [hf]; omega
    · simp [ih]; omega

theorem addAlong_total (c : Nat) (leaf : Data → Data) (hl : ∀ d, (leaf d).total = d.total) : ∀ (p : List Callsite) (s : Sym),
    (Sym.addAlong c leaf p s).data.total = s.data.total + c
  | [], .mk d cs => by simp [Sym.addAlong, Sym.data, hl]
  | _ :: _, .mk d cs => by simp [Sym.addAlong, Sym.data]

theorem onPos_ne (e : Ev) (m : PosMap) : (e.onPos m).isEmpty = false := by
  have key : ∀ (k : Nat) (f : Option PInfo → PInfo) (m : PosMap), (OMap.upsert k f m).isEmpty = false := by
    intro k f m
    cases m with
    | nil => rfl
    | cons a t => obtain ⟨k', v⟩ := a; unfold OMap.upsert; split; · rfl
                  split <;> rfl
  cases e <;> exact key _ _ _

theorem hasLocCalls_iff : ∀ cs : List (Callsite × Sym), hasLocCalls cs = true ↔ ∃ p ∈ cs, hasLoc p.2 = true
  | [] => by simp [hasLocCalls]
  | (k, s) :: t => by simp [hasLocCalls, hasLocCalls_iff t]

theorem addAlong_hasLoc (e : Ev) (c : Nat) : ∀ (p : List Callsite) (s : Sym),
    hasLoc (Sym.addAlong c (fun d => { d with pos := e.onPos d.pos }) p s) = true
  | [], .mk d cs => by simp [Sym.addAlong, hasLoc, onPos_ne]
  | k :: p, .mk d cs => by
    simp only [Sym.addAlong, hasLoc, Bool.or_eq_true]
    right
    rw [hasLocCalls_iff]
    have hm : ∀ cs : List (Callsite × Sym), ∃ o : Option Sym, (k, Sym.addAlong c (fun d => { d with pos := e.onPos d.pos }) p (o.getD Sym.new)) ∈
        modifyAt cs k (fun o => Sym.addAlong c (fun d => { d with pos := e.onPos d.pos }) p (o.getD Sym.new)) := by
      intro cs
      induction cs with
      | nil => exact ⟨none, by simp [modifyAt]⟩
      | cons a t ih =>
        obtain ⟨k', v⟩ := a
        unfold modifyAt
        by_cases hk : k = k'
        · rw [if_pos hk]; exact ⟨some v, by simp [hk]⟩
        · rw [if_neg hk]
          obtain ⟨o, ho⟩ := ih
          exact ⟨o, List.mem_cons_of_mem _ ho⟩
    obtain ⟨o, ho⟩ := hm cs
    exact ⟨_, ho, addAlong_hasLoc e c p _⟩

theorem Local.mono {N : Name → Prop} {E E' : Nat} (h : E ≤ E') {d : Data} {cs : List (Callsite × Sym)} (hl : Local N E d cs) : Local N E' d cs := by
  obtain ⟨h1, h2, h3, h4, h5⟩ := hl
  exact ⟨h1, by omega, by omega, fun p hp => ⟨(h4 p hp).1, le_trans (h4 p hp).2.1 h, (h4 p hp).2.2⟩, h5⟩

mutual
theorem Good.mono {N : Name → Prop} {E E' : Nat} (h : E ≤ E') : (s : Sym) → Good N E s → Good N E' s
  | .mk _ cs, hg => ⟨Local.mono h hg.1, GoodCalls.mono h cs hg.2⟩
theorem GoodCalls.mono {N : Name → Prop} {E E' : Nat} (h : E ≤ E') : (cs : List (Callsite × Sym)) → GoodCalls N E cs → GoodCalls N E' cs
  | [], _ => trivial
  | (_, s) :: t, hg => ⟨Good.mono h s hg.1, GoodCalls.mono h t hg.2⟩
end

theorem good_new (N : Name → Prop) (E : Nat) : Good N E Sym.new :=
  ⟨⟨rfl, Nat.zero_le _, Nat.zero_le _, (fun p hp => by simp [Data.zero] at hp), (fun p hp => by simp at hp)⟩, trivial⟩

theorem onPos_local {N : Name → Prop} {E : Nat} (e : Ev) (he : EvOk N e) (m : PosMap) (hl : m.length ≤ E)
    (hm : ∀ p ∈ m, LocFits p.1 ∧ p.2.targets.length ≤ E ∧ ∀ t ∈ p.2.targets, t.2 < 2 ^ 64 ∧ N t.1) :
    ((e.onPos m).map fun p => p.2.count).sum = (m.map fun p => p.2.count).sum + e.weight ∧ (e.onPos m).length ≤ E + 1 ∧
    ∀ p ∈ e.onPos m, LocFits p.1 ∧ p.2.targets.length ≤ E + 1 ∧ ∀ t ∈ p.2.targets, t.2 < 2 ^ 64 ∧ N t.1 := by
  cases e with
  | cnt pa loc c =>
    refine ⟨sum_modify loc c (fun i => { i with count := i.count + c, numInst := i.numInst + 1 }) (fun i => rfl) m, le_trans (upsert_length _ _ _) (by omega), ?_⟩
    intro p hp
    rcases mem_upsert' _ _ _ _ hp with h | rfl | ⟨v, h, rfl⟩
    · exact ⟨(hm p h).1, by have := (hm p h).2.1; omega, (hm p h).2.2⟩
    · exact ⟨he.1, by simp [PInfo.zero], by simp [PInfo.zero]⟩
    · have := hm _ h
      exact ⟨this.1, by have := this.2.1; simp at this ⊢; omega, this.2.2⟩
  | tgt pa loc n c =>
    refine ⟨sum_modify loc 0 (fun i => { i with targets := OMap.set n c i.targets }) (fun i => rfl) m, le_trans (upsert_length _ _ _) (by omega), ?_⟩
    obtain ⟨e1, e2, e3, e4⟩ := he
    have key : ∀ ts : OMap Name Nat, ts.length ≤ E → (∀ t ∈ ts, t.2 < 2 ^ 64 ∧ N t.1) →
        (OMap.set n c ts).length ≤ E + 1 ∧ ∀ t ∈ OMap.set n c ts, t.2 < 2 ^ 64 ∧ N t.1 := by
      intro ts h1 h2
      refine ⟨le_trans (upsert_length _ _ _) (by omega), ?_⟩
      intro t ht
      rcases mem_upsert' _ _ _ _ ht with h | rfl | ⟨v, h, rfl⟩
      · exact h2 t h
      · exact ⟨e3, e4⟩
      · exact ⟨e3, e4⟩
    intro p hp
    rcases mem_upsert' _ _ _ _ hp with h | rfl | ⟨v, h, rfl⟩
    · exact ⟨(hm p h).1, by have := (hm p h).2.1; omega, (hm p h).2.2⟩
    · exact ⟨e1, key [] (Nat.zero_le _) (fun t ht => by cases ht)⟩
    · have := hm _ h
      exact ⟨this.1, key v.targets this.2.1 this.2.2⟩

theorem addAlong_good {N : Name → Prop} {E : Nat} (e : Ev) (he : EvOk N e) : ∀ (p : List Callsite) (_ : ∀ k ∈ p, KeyOk N k) (s : Sym),
    Good N E s → Good N (E + 1) (Sym.addAlong e.weight (fun d => { d with pos := e.onPos d.pos }) p s)
  | [], _, .mk d cs, hg => by
    obtain ⟨⟨h1, h2, h3, h4, h5⟩, h6⟩ := hg
    obtain ⟨o1, o2, o3⟩ := onPos_local e he d.pos h2 h4
    refine ⟨⟨?_, o2, by omega, o3, h5⟩, GoodCalls.mono (Nat.le_succ E) cs h6⟩
    simp only [o1, h1]
    omega
  | k :: p, hk, .mk d cs, hg => by
    obtain ⟨⟨h1, h2, h3, h4, h5⟩, h6⟩ := hg
    have hkk := hk k (by simp)
    have hc := (goodCalls_iff N E cs).1 h6
    have ih := fun s => addAlong_good (E := E) e he p (fun k' h => hk k' (by simp [h])) s
    refine ⟨⟨?_, ?_, ?_, ?_, ?_⟩, ?_⟩
    · change d.total + e.weight = _
      rw [sum_modifyAt k e.weight _ (fun o => addAlong_total e.weight (fun d => { d with pos := e.onPos d.pos }) (fun d => rfl) p _)]
      change d.total + e.weight = (d.pos.map fun p => p.2.count).sum + ((cs.map fun p => p.2.data.total).sum + e.weight)
      omega
    · exact Nat.le_succ_of_le h2
    · exact le_trans (modifyAt_length _ _ _) (by omega)
    · exact fun q hq => ⟨(h4 q hq).1, Nat.le_succ_of_le (h4 q hq).2.1, (h4 q hq).2.2⟩
    · intro q hq
      rcases mem_modifyAt' _ _ _ _ hq with h | rfl | ⟨v, h, rfl⟩
      · exact h5 q h
      · exact ⟨hkk, addAlong_hasLoc e _ p _⟩
      · exact ⟨hkk, addAlong_hasLoc e _ p _⟩
    · rw [goodCalls_iff]
      intro q hq
      rcases mem_modifyAt' _ _ _ _ hq with h | rfl | ⟨v, h, rfl⟩
      · exact Good.mono (Nat.le_succ E) _ (hc q h)
      · exact ih _ (good_new N E)
      · exact ih _ (hc _ h)

theorem EvOk.path {N : Name → Prop} {e : Ev} (h : EvOk N e) : ∀ k ∈ e.path, KeyOk N k := by
  cases e with
  | cnt => exact h.2
  | tgt => exact h.2.1

theorem app_good {N : Name → Prop} {E : Nat} (e : Ev) (he : EvOk N e) (s : Sym) (hg : Good N E s) : Good N (E + 1) (Ev.app s e) :=
  addAlong_good e he e.path he.path s hg

theorem fold_good {N : Name → Prop} : ∀ (es : List Ev) (E : Nat) (s : Sym), (∀ e ∈ es, EvOk N e) → Good N E s → Good N (E + es.length) (es.foldl Ev.app s)
  | [], E, s, _, hg => hg
  | e :: t, E, s, he, hg => by
    rw [List.foldl_cons, List.length_cons, show E + (t.length + 1) = (E + 1) + t.length by omega]
    exact fold_good t (E + 1) _ (fun x hx => he x (by simp [hx])) (app_good e (he e (by simp)) s hg)

theorem good_head {N : Name → Prop} {E : Nat} {d : Data} {cs : List (Callsite × Sym)} (h : Good N E (.mk d cs)) (n : Nat) :
    Good N E (.mk { d with head := n } cs) := h

/-! ## The events of a file -/

mutual
theorem symEvents_ok {N : Name → Prop} (strs : List Name) : (s : Sym) → SymFits s → (∀ n ∈ symNames s, N n) → ∀ b, writeSym strs s = some b →
    ∀ pre : List Callsite, (∀ k ∈ pre, KeyOk N k) → (∀ e ∈ symEvents pre s, EvOk N e) ∧ (symEvents pre s).length ≤ b.length
  | .mk d cs, hf, hN, b, hw, pre, hp => by
    obtain ⟨p, c, h1, h2, rfl⟩ := writeSym_length hw
    obtain ⟨f1, f2, f3, f4⟩ := hf
    simp only [symNames, List.mem_append] at hN
    have h3 := callEvents_ok strs cs f4 (fun n hn => hN n (Or.inr hn)) c h2 pre hp
    have h4 := posEvents_ok strs d.pos f1 (fun n hn => hN n (Or.inl hn)) p h1 pre hp
    rw [symEvents]
    refine ⟨fun e he => (List.mem_append.1 he).elim (h4.1 e) (h3.1 e), ?_⟩
    simp only [List.length_append]
    omega
theorem callEvents_ok {N : Name → Prop} (strs : List Name) : (cs : List (Callsite × Sym)) → CallsFit cs → (∀ n ∈ callNames cs, N n) →
    ∀ b, writeCalls strs cs = some b →
    ∀ pre : List Callsite, (∀ k ∈ pre, KeyOk N k) → (∀ e ∈ callEvents pre cs, EvOk N e) ∧ (callEvents pre cs).length ≤ b.length
  | [], _, _, _, _, _, _ => by simp [callEvents]
  | (k, s) :: t, hf, hN, b, hw, pre, hp => by
    obtain ⟨f1, f2, f3⟩ := hf
    simp only [callNames, List.mem_append, List.mem_cons] at hN
    unfold writeCalls at hw
    split at hw
    · cases hw
    next hk =>
    split at hw
    · next i b1 b2 hi hb1 hb2 =>
      split at hw
      · cases hw
      simp only [Option.some.injEq] at hw
      subst hw
      have h3 := callEvents_ok strs t f3 (fun n hn => hN n (Or.inr hn)) b2 hb2 pre hp
      have h4 := symEvents_ok strs s f2 (fun n hn => hN n (Or.inl (Or.inr hn))) b1 hb1 (pre ++ [k]) (by
        intro x hx
        rcases List.mem_append.1 hx with hx | hx
        · exact hp x hx
        · rw [List.mem_singleton] at hx
          subst hx
          exact ⟨f1, hN _ (Or.inl (Or.inl rfl)), hk⟩)
      rw [callEvents]
      refine ⟨fun e he => (List.mem_append.1 he).elim (h4.1 e) (h3.1 e), ?_⟩
      simp only [List.length_append]
      omega
    · cases hw
theorem posEvents_ok {N : Name → Prop} (strs : List Name) : (m : PosMap) → (∀ p ∈ m, PosFits p) → (∀ n ∈ targetNames m, N n) →
    ∀ b, writePos strs m = some b →
    ∀ pre : List Callsite, (∀ k ∈ pre, KeyOk N k) → (∀ e ∈ posEvents pre m, EvOk N e) ∧ (posEvents pre m).length ≤ b.length
  | [], _, _, _, _, _, _ => by simp [posEvents]
  | (off, i) :: t, hf, hN, b, hw, pre, hp => by
    unfold writePos at hw
    split at hw
    · next b1 b2 hb1 hb2 =>
      simp only [Option.some.injEq] at hw
      subst hw
      have h3 := posEvents_ok strs t (fun p hp => hf p (by simp [hp])) (fun n hn => hN n (by simp [targetNames] at hn ⊢; tauto)) b2 hb2 pre hp
      have hi := hf (off, i) (by simp)
      have key : ∀ (ts : List (Name × Nat)) (b : List UInt8), writeTargets strs ts = some b → ts.length ≤ b.length := by
        intro ts
        induction ts with
        | nil => intro b _; simp
        | cons x ts ih =>
          intro b hb
          unfold writeTargets at hb
          split at hb
          · next j b' _ hb' =>
            simp only [Option.some.injEq] at hb
            subst hb
            have := ih _ hb'
            simp only [List.length_append, List.length_cons, writeUnsigned_length]
            omega
          · cases hb
      have h4 := key _ _ hb1
      have e1 : posEvents pre ((off, i) :: t) = (Ev.cnt pre off i.count :: i.targets.map (fun t => Ev.tgt pre off t.1 t.2)) ++
          posEvents pre t := by simp [posEvents]
      rw [e1]
      constructor
      · intro e he
        rcases List.mem_append.1 he with he | he
        · rcases List.mem_cons.1 he with rfl | he
          · exact ⟨hi.1, hp⟩
          · rw [List.mem_map] at he
            obtain ⟨x, hx, rfl⟩ := he
            exact ⟨hi.1, hp, by simpa using hi.2.2.2 x hx, hN _ (by
              simp only [targetNames, List.mem_flatMap, List.mem_map]
              exact ⟨(off, i), by simp, x, hx, rfl⟩)⟩
        · exact h3.1 e he
      · simp only [List.length_append, List.length_cons, List.length_map, writeUnsigned_length]
        omega
    · cases hw
end

/-! ## Consequences of the shape -/

mutual
theorem good_samples {N : Name → Prop} {E : Nat} : (s : Sym) → Good N E s → samples s = s.data.total
  | .mk d cs, hg => by
    rw [samples, goodCalls_samples cs hg.2]
    exact hg.1.1.symm
theorem goodCalls_samples {N : Name → Prop} {E : Nat} : (cs : List (Callsite × Sym)) → GoodCalls N E cs →
    samplesCalls cs = (cs.map fun p => p.2.data.total).sum
  | [], _ => rfl
  | (_, s) :: t, hg => by
    rw [samplesCalls, good_samples s hg.1, goodCalls_samples t hg.2]
    simp
end

mutual
theorem good_names {N : Name → Prop} {E : Nat} : (s : Sym) → Good N E s → ∀ n ∈ symNames s, N n
  | .mk d cs, hg, n, hn => by
    rw [symNames, List.mem_append] at hn
    rcases hn with hn | hn
    · simp only [targetNames, List.mem_flatMap, List.mem_map] at hn
      obtain ⟨p, hp, t, ht, rfl⟩ := hn
      exact ((hg.1.2.2.2.1 p hp).2.2 t ht).2
    · exact goodCalls_names cs (fun p hp => (hg.1.2.2.2.2 p hp).1.2.1) hg.2 n hn
theorem goodCalls_names {N : Name → Prop} {E : Nat} : (cs : List (Callsite × Sym)) → (∀ p ∈ cs, N p.1.2) → GoodCalls N E cs → ∀ n ∈ callNames cs, N n
  | [], _, _, n, hn => by simp [callNames] at hn
  | (k, s) :: t, hk, hg, n, hn => by
    simp only [callNames, List.mem_append, List.mem_cons] at hn
    rcases hn with (rfl | hn) | hn
    · exact hk (k, s) (by simp)
    · exact good_names s hg.1 n hn
    · exact goodCalls_names t (fun p hp => hk p (by simp [hp])) hg.2 n hn
end

mutual
theorem symTargets_names : (s : Sym) → ∀ n ∈ symTargets s, n ∈ symNames s
  | .mk d cs, n, hn => by
    simp only [symTargets, symNames, List.mem_append] at hn ⊢
    exact hn.imp_right (callTargets_names cs n)
theorem callTargets_names : (cs : List (Callsite × Sym)) → ∀ n ∈ callTargets cs, n ∈ callNames cs
  | [], n, hn => by simp [callTargets] at hn
  | (k, s) :: t, n, hn => by
    simp only [callTargets, callNames, List.mem_append, List.mem_cons] at hn ⊢
    rcases hn with hn | hn
    · exact Or.inl (Or.inr (symTargets_names s n hn))
    · exact Or.inr (callTargets_names t n hn)
end

mutual
theorem good_fits {N : Name → Prop} {E : Nat} (hE : E < 4294967296) : (s : Sym) → Good N E s → s.data.total < 18446744073709551616 → SymFits s
  | .mk d cs, hg, ht => by
    obtain ⟨⟨h1, h2, h3, h4, h5⟩, h6⟩ := hg
    change d.total < _ at ht
    refine ⟨?_, by omega, by omega, goodCalls_fits hE cs (fun p hp => (h5 p hp).1.1) h6 (by omega)⟩
    intro p hp
    refine ⟨(h4 p hp).1, ?_, by have := (h4 p hp).2.1; omega, fun t ht => by simpa using ((h4 p hp).2.2 t ht).1⟩
    have := List.single_le_sum (fun _ _ => Nat.zero_le _) _ (List.mem_map.2 ⟨p, hp, rfl⟩ : p.2.count ∈ d.pos.map fun p => p.2.count)
    omega
theorem goodCalls_fits {N : Name → Prop} {E : Nat} (hE : E < 4294967296) : (cs : List (Callsite × Sym)) → (∀ p ∈ cs, LocFits p.1.1) →
    GoodCalls N E cs → (cs.map fun p => p.2.data.total).sum < 18446744073709551616 → CallsFit cs
  | [], _, _, _ => trivial
  | (k, s) :: t, hk, hg, ht => by
    simp only [List.map_cons, List.sum_cons] at ht
    exact ⟨hk (k, s) (by simp), good_fits hE s hg.1 (by omega), goodCalls_fits hE t (fun p hp => hk p (by simp [hp])) hg.2 (by omega)⟩
end

theorem mem_of_lookup {A : Type} : ∀ {l : List (Callsite × A)} {k : Callsite} {c : A}, lookup l k = some c → (k, c) ∈ l
  | [], _, _, h => by simp [lookup] at h
  | (k', v) :: t, k, c, h => by
    simp only [lookup] at h
    split at h
    · next hk => simp only [Option.some.injEq] at h; subst h; subst hk; simp
    · exact List.mem_cons_of_mem _ (mem_of_lookup h)

theorem good_at {N : Name → Prop} {E : Nat} : ∀ (path : List Callsite) (s u : Sym), Good N E s → s.at? path = some u →
    Good N E u ∧ (path = [] ∨ hasLoc u = true)
  | [], s, u, hg, h => by
    simp only [Sym.at?, Option.some.injEq] at h
    subst h
    exact ⟨hg, Or.inl rfl⟩
  | k :: p, .mk d cs, u, hg, h => by
    simp only [Sym.at?, Sym.calls] at h
    cases hl : lookup cs k with
    | none => rw [hl] at h; cases h
    | some c =>
      rw [hl] at h
      have hm := mem_of_lookup hl
      obtain ⟨h1, h2⟩ := good_at p c u ((goodCalls_iff N E cs).1 hg.2 _ hm) h
      refine ⟨h1, Or.inr ?_⟩
      rcases h2 with rfl | h2
      · simp only [Sym.at?, Option.some.injEq] at h
        subst h
        exact (hg.1.2.2.2.2 _ hm).2
      · exact h2

theorem good_named {N : Name → Prop} {E : Nat} {s : Sym} (hg : Good N E s) : CalleesNamed s := by
  intro path u loc c hu hl
  have := (good_at path s u hg hu).1
  cases u with
  | mk d cs => exact ((this.1.2.2.2.2 _ (mem_of_lookup hl)).1.2.2) rfl

theorem good_samplesAt {N : Name → Prop} {E : Nat} {s : Sym} (hg : Good N E s) (path : List Callsite) : samplesAt s path = totalAt s path := by
  unfold samplesAt totalAt
  rw [node?_at?]
  cases h : s.at? path with
  | none => rfl
  | some u =>
    simp only [Option.map_some]
    exact good_samples u (good_at path s u hg h).1

/-! ## The merged symbol -/

/-- The symbol after reading the functions `ts` of one name. -/
def mergedSym (ts : List Top) : Sym := ts.foldl (fun r t => loadTop t r) Sym.new

theorem mergedSym_snoc (ts : List Top) (t : Top) : mergedSym (ts ++ [t]) = loadTop t (mergedSym ts) := by
  simp [mergedSym]

theorem app_WF (e : Ev) (s : Sym) (h : s.WF) : (Ev.app s e).WF := by
  apply addAlong_WF _ _ _ _ _ h
  intro d h1 h2
  have h3 : PosOk d.pos := ⟨h1, fun loc i hi => h2 _ (OMap.mem_of_find?_some hi)⟩
  have h4 := onPos_ok h3 e
  refine ⟨h4.1, ?_⟩
  intro p hp
  exact h4.2 p.1 p.2 ((OMap.find?_eq_some_iff h4.1).2 hp)

theorem fold_WF : ∀ (es : List Ev) (s : Sym), s.WF → (es.foldl Ev.app s).WF
  | [], _, h => h
  | e :: t, s, h => fold_WF t _ (app_WF e s h)

theorem loadTop_WF (t : Top) (r : Sym) (h : r.WF) : (loadTop t r).WF := by
  unfold loadTop
  apply fold_WF
  cases r with
  | mk d cs => exact h

theorem mergedSym_WF (ts : List Top) : (mergedSym ts).WF := by
  induction ts using List.reverseRecOn with
  | nil => exact Sym.WF.new
  | append_singleton ts t ih => rw [mergedSym_snoc]; exact loadTop_WF t _ ih

theorem loadTop_good {N : Name → Prop} {E : Nat} (t : Top) (r : Sym) (he : ∀ e ∈ symEvents [] t.sym, EvOk N e) (hg : Good N E r) :
    Good N (E + (symEvents [] t.sym).length) (loadTop t r) := by
  unfold loadTop
  apply fold_good _ _ _ he
  cases r with
  | mk d cs => exact hg

theorem mergedSym_good {N : Name → Prop} (ts : List Top) (he : ∀ t ∈ ts, ∀ e ∈ symEvents [] t.sym, EvOk N e) :
    Good N ((ts.map fun t => (symEvents [] t.sym).length).sum) (mergedSym ts) := by
  induction ts using List.reverseRecOn with
  | nil => exact good_new N 0
  | append_singleton ts t ih =>
    rw [mergedSym_snoc, List.map_append, List.sum_append]
    simpa using loadTop_good t _ (he t (by simp)) (ih (fun x hx => he x (by simp [hx])))

theorem loadTop_isSome (t : Top) (ht : t.sym.WF) (r : Sym) (path : List Callsite) :
    ((loadTop t r).node? path).isSome = true ↔ (r.node? path).isSome = true ∨ ∃ u, t.sym.at? path = some u ∧ hasLoc u = true := by
  have hroot : ((Sym.mk { r.data with head := r.data.head + t.sym.data.head } r.calls).node? path).isSome = (r.node? path).isSome := by
    cases path with
    | nil => cases r; rfl
    | cons k p => simp [Sym.node?, Sym.calls]
  rw [loadTop_node? t ht r path]
  cases hu : t.sym.at? path with
  | none => simp [hroot]
  | some u =>
    by_cases hl : hasLoc u = false
    · simp [hl, hroot]
    · simp only [hl, if_false]
      simp only [Bool.not_eq_false] at hl
      simp [hl]

theorem new_total (path : List Callsite) : totalAt Sym.new path = 0 := by
  unfold totalAt; rw [Sym.new_node?]; by_cases h : path = [] <;> simp [h, Data.zero]

theorem new_count (path : List Callsite) (loc : Nat) : countAt Sym.new path loc = 0 := by
  unfold countAt; rw [Sym.new_node?]; by_cases h : path = [] <;> simp [h, Data.zero, cntOf, OMap.find?]

theorem new_target (path : List Callsite) (loc : Nat) (n : Name) : targetAt Sym.new path loc n = none := by
  unfold targetAt; rw [Sym.new_node?]; by_cases h : path = [] <;> simp [h, Data.zero, tgtOf, OMap.find?]

theorem mergedSym_sums (ts : List Top) (hw : ∀ t ∈ ts, t.sym.WF) : Sums (ts.map Top.sym) (mergedSym ts) := by
  induction ts using List.reverseRecOn with
  | nil =>
    refine ⟨rfl, fun p => new_total p, fun p l => new_count p l, fun p l n => new_target p l n, ?_⟩
    intro path
    change (Sym.new.node? path).isSome = true ↔ _
    rw [Sym.new_node?]
    by_cases h : path = [] <;> simp [h]
  | append_singleton ts t ih =>
    have ih := ih (fun x hx => hw x (by simp [hx]))
    obtain ⟨h1, h2⟩ := loadTop_over t (hw t (by simp)) (mergedSym ts) (mergedSym_WF ts)
    rw [mergedSym_snoc]
    refine ⟨?_, ?_, ?_, ?_, ?_⟩
    · rw [h1, ih.head]; simp
    · intro p; rw [(h2 p).1, ih.total]; simp
    · intro p l; rw [((h2 p).2 l).1, ih.count]; simp
    · intro p l n
      rw [((h2 p).2 l).2, ih.target, List.map_append, List.reverse_append]
      cases h : targetAt t.sym p l n <;> simp [h]
    · intro p
      rw [loadTop_isSome t (hw t (by simp)), ih.nodes, List.map_append]
      simp only [List.mem_append, List.map_cons, List.map_nil, List.mem_singleton]
      constructor
      · rintro ((h | ⟨c, hc, h⟩) | h)
        · exact Or.inl h
        · exact Or.inr ⟨c, Or.inl hc, h⟩
        · exact Or.inr ⟨_, Or.inr rfl, h⟩
      · rintro (h | ⟨c, hc | rfl, h⟩)
        · exact Or.inl (Or.inl h)
        · exact Or.inl (Or.inr ⟨c, hc, h⟩)
        · exact Or.inr h

/-! ## Reading the inputs -/

/-- The functions of the name `n`, with their timestamps. -/
def topsOf (xs : List Input) (n : Name) : List Top := xs.filterMap fun x => OMap.find? x.profile.syms n

theorem copies_eq (xs : List Input) (n : Name) : copies xs n = (topsOf xs n).map Top.sym := by
  unfold copies topsOf
  rw [List.map_filterMap]

/-- A bucket of the merged working set. -/
def wsAt (xs : List Input) (i : Nat) : Nat × Nat :=
  (xs.map fun x => (((x.profile.workingSet[i]?).getD (0, 0)).1 / 10 * 10, ((x.profile.workingSet[i]?).getD (0, 0)).2)).foldl updateWorkingSet (0, 0)

/-- The state after reading `xs`. -/
structure After (flag : Nat) (xs : List Input) (s : State) : Prop where
  sorted : OMap.Sorted s.map
  tsSorted : OMap.Sorted s.ts
  map : ∀ n, OMap.find? s.map n = if topsOf xs n = [] then none else some (mergedSym (topsOf xs n))
  ts : ∀ n, OMap.find? s.ts n = (xs.reverse.findSome? fun x => (OMap.find? x.profile.syms n).map fun t => if x.version ≥ 3 then t.ts else 0)
  ws : s.ws = (List.range 128).map (wsAt xs)
  version : s.version = ((xs.getLast?).map Input.version).getD flag
  grand : (s.map.map fun x => x.2.data.total).sum = grand xs

theorem fileVersion_enc {v : Nat} (hv : v < 2 ^ 32) {p : Profile} {b : List UInt8} (h : writeFile v p = some b) : fileVersion b = some v := by
  unfold writeFile at h
  simp only at h
  cases hb : functionBody v (stringTable p.syms) p.syms with
  | none => simp [hb] at h
  | some body =>
    simp only [hb, Option.map_some, Option.some.injEq] at h
    subst h
    unfold fileVersion
    simp only [List.append_assoc]
    rw [readU (by decide), Option.bind_some]
    simp only
    rw [readU (by simpa using hv)]
    rfl

theorem topsOf_snoc (xs : List Input) (x : Input) (n : Name) :
    topsOf (xs ++ [x]) n = topsOf xs n ++ (OMap.find? x.profile.syms n).toList := by
  unfold topsOf
  rw [List.filterMap_append]
  cases h : OMap.find? x.profile.syms n <;> simp [h]

theorem sum_set {m : SymMap} (hm : OMap.Sorted m) (k : Name) (v : Sym) :
    ((OMap.set k v m).map fun x => x.2.data.total).sum + ((OMap.find? m k).getD Sym.new).data.total =
      (m.map fun x => x.2.data.total).sum + v.data.total := by
  induction m with
  | nil => simp [OMap.set, OMap.upsert, OMap.find?, Sym.new, Sym.data, Data.zero]
  | cons a t ih =>
    obtain ⟨k', w⟩ := a
    have ht := (List.pairwise_cons.1 hm).2
    have hlt := (List.pairwise_cons.1 hm).1
    have ih := ih ht
    unfold OMap.set at ih ⊢
    unfold OMap.upsert
    by_cases h1 : k < k'
    · rw [if_pos h1]
      have : OMap.find? ((k', w) :: t) k = none := by
        cases hf : OMap.find? ((k', w) :: t) k with
        | none => rfl
        | some z =>
          have := OMap.mem_of_find?_some hf
          rcases List.mem_cons.1 this with h | h
          · simp only [Prod.mk.injEq] at h
            exact absurd h1 (by rw [h.1]; exact lt_irrefl _)
          · exact absurd (lt_trans h1 (hlt _ h)) (lt_irrefl _)
      rw [this]
      simp [Sym.new, Data.zero]
      simp only [Sym.data]
      omega
    · rw [if_neg h1]
      by_cases h2 : k = k'
      · rw [if_pos h2]
        simp [OMap.find?, h2]
        omega
      · rw [if_neg h2]
        simp only [OMap.find?, if_neg h2, List.map_cons, List.sum_cons]
        omega

theorem loadTop_total (t : Top) (r : Sym) : (loadTop t r).data.total = r.data.total + samples t.sym := by
  have key : ∀ (es : List Ev) (s : Sym), (es.foldl Ev.app s).data.total = s.data.total + (es.map Ev.weight).sum := by
    intro es
    induction es with
    | nil => intro s; simp
    | cons e es ih =>
      intro s
      rw [List.foldl_cons, ih]
      have := addAlong_total e.weight (fun d => { d with pos := e.onPos d.pos }) (fun d => rfl) e.path s
      unfold Ev.app
      rw [this]
      simp
      omega
  unfold loadTop
  rw [key, symEvents_weight]
  rfl

theorem loadAll_sum (syms : List (Name × Top)) : ∀ (m : SymMap), OMap.Sorted m →
    ((loadAll syms m).map fun x => x.2.data.total).sum = (m.map fun x => x.2.data.total).sum + (syms.map fun q => samples q.2.sym).sum := by
  induction syms with
  | nil => intro m _; simp [loadAll]
  | cons p syms ih =>
    intro m hm
    obtain ⟨k, t⟩ := p
    have e : loadAll ((k, t) :: syms) m = loadAll syms (OMap.set k (loadTop t ((OMap.find? m k).getD Sym.new)) m) := by
      simp [loadAll]
    rw [e, ih _ (sorted_set hm _ _)]
    have := sum_set hm k (loadTop t ((OMap.find? m k).getD Sym.new))
    rw [loadTop_total] at this
    simp only [List.map_cons, List.sum_cons]
    omega

theorem loadTs_find (v : Nat) : ∀ (l : List (Name × Top)) (_ : (l.map Prod.fst).Nodup) (m : OMap Name Nat), OMap.Sorted m →
    OMap.Sorted (loadTs v l m) ∧ ∀ n, OMap.find? (loadTs v l m) n =
      ((OMap.find? l n).map fun t => if v ≥ 3 then t.ts else 0).or (OMap.find? m n)
  | [], _, m, hm => ⟨hm, fun n => by simp [loadTs, OMap.find?]⟩
  | (k, x) :: t, hn, m, hm => by
    simp only [List.map_cons, List.nodup_cons] at hn
    have hs : OMap.Sorted (OMap.set k (if v ≥ 3 then x.ts else 0) m) := OMap.Sorted.upsert hm _ _
    obtain ⟨i1, i2⟩ := loadTs_find v t hn.2 _ hs
    have hl : loadTs v ((k, x) :: t) m = loadTs v t (OMap.set k (if v ≥ 3 then x.ts else 0) m) := rfl
    rw [hl]
    refine ⟨i1, fun n => ?_⟩
    rw [i2 n]
    unfold OMap.set
    rw [OMap.find?_upsert hm]
    by_cases h : n = k
    · subst h
      have : OMap.find? t n = none := by
        cases hf : OMap.find? t n with
        | none => rfl
        | some z => exact absurd (List.mem_map.2 ⟨_, OMap.mem_of_find?_some hf, rfl⟩) hn.1
      simp [OMap.find?, this]
    · simp [OMap.find?, h]

theorem read_inputs (pol : Policy) (flag : Nat) (xs : List Input) (hx : ∀ x ∈ xs, x.Ok pol) :
    ∃ s, (xs.map fun x => some x.bytes).foldlM (readInput pol) ⟨[], [], List.replicate 128 (0, 0), flag⟩ = some s ∧ After flag xs s := by
  induction xs using List.reverseRecOn with
  | nil =>
    refine ⟨_, rfl, OMap.sorted_nil, OMap.sorted_nil, fun n => rfl, fun n => rfl, ?_, rfl, rfl⟩
    apply List.ext_getElem? 
    intro i
    by_cases hi : i < 128
    · rw [List.getElem?_replicate, if_pos hi]; simp [hi, wsAt]
    · simp [hi]
  | append_singleton xs x ih =>
    obtain ⟨s, h1, h2⟩ := ih (fun y hy => hx y (by simp [hy]))
    have ok := hx x (by simp)
    have hr := readFile_enc x.version (by simpa using ok.version) x.profile ok.fits true pol ok.fix ok.plain x.bytes ok.written s.map s.ts
      h2.sorted (Or.inl rfl)
    rw [List.map_append, List.foldlM_append, h1]
    simp only [Option.bind_eq_bind, Option.bind_some, List.map_cons, List.map_nil, List.foldlM_cons, List.foldlM_nil, readInput]
    rw [hr, Option.bind_some, fileVersion_enc ok.version ok.written]
    refine ⟨_, rfl, ?_⟩
    obtain ⟨l1, l2⟩ := loadAll_find? x.profile.syms ok.fits.nodup s.map h2.sorted
    obtain ⟨t1, t2⟩ := loadTs_find x.version x.profile.syms ok.fits.nodup s.ts h2.tsSorted
    refine ⟨l1, t1, ?_, ?_, ?_, ?_, ?_⟩
    · intro n
      rw [l2 n, topsOf_snoc, h2.map n]
      cases hf : OMap.find? x.profile.syms n with
      | none => simp
      | some t =>
        by_cases ht : topsOf xs n = [] <;> simp [ht, mergedSym]
    · intro n
      rw [t2 n, List.reverse_append, h2.ts n]
      cases hf : OMap.find? x.profile.syms n <;> simp [hf]
    · simp only
      apply List.ext_getElem?
      intro i
      rw [h2.ws]
      by_cases hi : i < 128
      · have hl := ok.fits.wsLen
        have : i < x.profile.workingSet.length := by omega
        simp [hi, wsAt, this]
      · have hl := ok.fits.wsLen
        have : ¬ i < x.profile.workingSet.length := by omega
        simp [hi, this]
    · simp
    · rw [loadAll_sum _ _ h2.sorted, h2.grand]
      simp [Merger.grand]

end Verif.Merger
