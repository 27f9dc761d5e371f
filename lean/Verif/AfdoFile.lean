import Verif.AfdoRead

/-! # The whole-file round trip (lemmas for C07-C09) -/
namespace Verif.Afdo
open Verif Verif.Gcov Verif.SymbolMap

/-- A name that survives the on-disk form. -/
def NameFits (n : Name) : Prop := (0 : UInt8) ∉ n ∧ n.length + 4 < 16384

/-- A summary that fits its fields. -/
structure SummaryFits (s : Summary) : Prop where
  total : s.total < 18446744073709551616
  maxCount : s.maxCount < 18446744073709551616
  maxFunction : s.maxFunction < 18446744073709551616
  numCounts : s.numCounts < 18446744073709551616
  numFunctions : s.numFunctions < 18446744073709551616
  len : s.detailed.length < 4294967296
  detailed : ∀ d ∈ s.detailed, d.1 < 4294967296 ∧ d.2.1 < 18446744073709551616 ∧
    d.2.2 < 18446744073709551616

/-- A loop that reads a list of items, each appended to the result. -/
theorem loop_items {A B : Type} (f : List B × List UInt8 → Option (List B × List UInt8))
    (enc : A → List UInt8) (val : A → B) (xs : List A)
    (h : ∀ x ∈ xs, ∀ acc r, f (acc, enc x ++ r) = some (acc ++ [val x], r)) (acc : List B)
    (r : List UInt8) :
    loopM f xs.length (acc, xs.flatMap enc ++ r) = some (acc ++ xs.map val, r) := by
  induction xs generalizing acc with
  | nil => simp [loopM]
  | cons x xs ih =>
    rw [List.length_cons, List.flatMap_cons, List.append_assoc]
    simp only [loopM]
    rw [h x List.mem_cons_self]
    simp only [Option.bind_some]
    rw [ih (fun y hy => h y (List.mem_cons_of_mem _ hy))]
    simp

theorem readSummary_enc (v : Nat) (s : Summary) (hs : SummaryFits s) (r : List UInt8) :
    readSummary v (writeSummary v s ++ r) = some (if v ≥ 3 then some s else none, r) := by
  unfold readSummary writeSummary
  by_cases hv : v ≥ 3
  · simp only [hv, if_true, List.append_assoc, Option.bind_eq_bind]
    rw [readU (by decide)]
    simp only [Option.bind_some, ne_eq, not_true_eq_false, if_false]
    rw [readC hs.total]; simp only [Option.bind_some]
    rw [readC hs.maxCount]; simp only [Option.bind_some]
    rw [readC hs.maxFunction]; simp only [Option.bind_some]
    rw [readC hs.numCounts]; simp only [Option.bind_some]
    rw [readC hs.numFunctions]; simp only [Option.bind_some]
    rw [readC (by have := hs.len; omega)]; simp only [Option.bind_some]
    rw [Nat.mod_eq_of_lt hs.len]
    have := loop_items readDetailed
      (fun d : Nat × Nat × Nat => writeUnsigned d.1 ++ (writeCounter d.2.1 ++ writeCounter d.2.2))
      id s.detailed (by
        intro d hd acc r
        obtain ⟨h1, h2, h3⟩ := hs.detailed d hd
        unfold readDetailed
        simp only [List.append_assoc, Option.bind_eq_bind]
        rw [readU h1]; simp only [Option.bind_some]
        rw [readC h2]; simp only [Option.bind_some]
        rw [readC h3]; simp only [Option.bind_some]
        rfl) [] r
    rw [this]
    simp
  · simp only [hv, if_false, List.nil_append]

theorem readNames_enc (v : Nat) (files : List Name) (fileIdx : Name → Option Nat) (strs : List Name)
    (hf : ∀ n ∈ files, NameFits n) (hfl : files.length < 4294967296)
    (hn : ∀ n ∈ strs, NameFits n) (hsl : strs.length < 4294967296)
    (hi : ∀ n ∈ strs, ∀ i, fileIdx n = some i → i < 4294967296) (r : List UInt8) :
    readNames v (writeNames v files fileIdx strs ++ r) =
      some (if v ≥ 3 then files else [],
        strs.map (fun n => (fixName n, if v ≥ 3 then (fileIdx n).getD 4294967295 else 4294967295)), r) := by
  have hfix : ∀ n, NameFits n → NameFits (fixName n) := by
    have key : ∀ (n : Name) k, NameFits n → NameFits (n.set k 50) := by
      intro n k h
      refine ⟨?_, by rw [List.length_set]; exact h.2⟩
      intro hm
      rcases List.mem_or_eq_of_mem_set hm with hm | hm
      · exact h.1 hm
      · cases hm
    intro n h
    unfold fixName
    split
    · exact key _ _ h
    · split
      · exact key _ _ h
      · split
        · exact key _ _ h
        · exact h
  have hstr : ∀ n, NameFits n → ∀ r, readString v (writeString v n ++ r) = some (n, r) :=
    fun n h r => readString_writeString v n h.1 h.2 r
  have hlen : namesLength strs % 4294967296 < 4294967296 := Nat.mod_lt _ (by decide)
  have hnames : ∀ r, loopM (readName v) strs.length ([], strs.flatMap (writeName v fileIdx) ++ r) =
      some (strs.map (fun n => (fixName n, if v ≥ 3 then (fileIdx n).getD 4294967295 else 4294967295)),
        r) := by
    intro r
    have := loop_items (readName v) (writeName v fileIdx)
      (fun n => (fixName n, if v ≥ 3 then (fileIdx n).getD 4294967295 else 4294967295)) strs (by
        intro n hm acc r
        unfold readName writeName
        simp only [List.append_assoc, Option.bind_eq_bind]
        rw [hstr _ (hfix n (hn n hm))]
        simp only [Option.bind_some]
        by_cases hv : v ≥ 3
        · simp only [hv, if_true]
          rw [readU (by
            cases h : fileIdx n with
            | none => simp
            | some i => simpa using hi n hm i h)]
          simp only [Option.bind_some]
        · simp only [hv, if_false, List.nil_append]) [] r
    rw [this]; simp
  unfold readNames writeNames
  simp only [List.append_assoc, Option.bind_eq_bind]
  rw [readU (by decide)]
  simp only [Option.bind_some, ne_eq, not_true_eq_false, if_false]
  rw [show writeUnsigned (namesLength strs) = le32 (namesLength strs) from rfl, readUnsigned_le32]
  simp only [Option.bind_some]
  by_cases hv : v ≥ 3
  · simp only [hv, if_true, List.append_assoc]
    rw [readU hfl]
    simp only [Option.bind_some]
    have := loop_items (readFileName v) (writeString v) id files (by
      intro n hm acc r
      unfold readFileName
      simp only [Option.bind_eq_bind]
      rw [hstr _ (hf n hm)]
      rfl) [] (writeUnsigned strs.length ++ (strs.flatMap (writeName v fileIdx) ++ r))
    rw [this]
    simp only [Option.bind_some, List.map_id, List.nil_append]
    rw [readU hsl]
    simp only [Option.bind_some]
    rw [hnames]
    simp only [Option.bind_some, hv, if_true]
  · simp only [hv, if_false, List.nil_append]
    rw [readU hsl]
    simp only [Option.bind_some]
    rw [hnames]
    simp only [Option.bind_some, hv, if_false]

theorem readModule_enc (r : List UInt8) : readModule (writeModule ++ r) = some r := by
  unfold readModule writeModule
  simp only [List.append_assoc, Option.bind_eq_bind]
  rw [readU (by decide)]
  simp only [Option.bind_some, ne_eq, not_true_eq_false, if_false]
  rw [readU (by decide)]
  simp only [Option.bind_some]
  rw [readU (by decide)]
  rfl

theorem readWorkingSet_enc (ws : List (Nat × Nat)) (hl : ws.length = 128)
    (hf : ∀ w ∈ ws, w.1 < 4294967296 ∧ w.2 < 18446744073709551616) (r : List UInt8) :
    readWorkingSet (writeWorkingSet ws ++ r) =
      some (ws.map (fun w => (w.1 / 10 * 10, w.2)), r) := by
  unfold readWorkingSet writeWorkingSet
  simp only [List.append_assoc, Option.bind_eq_bind]
  rw [readU (by decide)]
  simp only [Option.bind_some, ne_eq, not_true_eq_false, if_false]
  rw [readU (by decide)]
  simp only [Option.bind_some]
  have := loop_items readBucket (fun w : Nat × Nat => writeUnsigned (w.1 / 10) ++ writeCounter w.2)
    (fun w => (w.1 / 10 * 10, w.2)) ws (by
      intro w hw acc r
      obtain ⟨h1, h2⟩ := hf w hw
      unfold readBucket
      simp only [List.append_assoc, Option.bind_eq_bind]
      rw [readU (by omega)]
      simp only [Option.bind_some]
      rw [readC h2]
      simp only [Option.bind_some]
      rw [Nat.mod_eq_of_lt (by omega)]) [] r
  rw [hl] at this
  rw [this]
  simp

/-- Everything fits the on-disk fields. -/
structure ProfileFits (p : Profile) : Prop where
  /-- `map_` holds one symbol per name. -/
  nodup : (p.syms.map Prod.fst).Nodup
  tops : ∀ q ∈ p.syms, TopFits q.2
  count : p.syms.length < 4294967296
  names : ∀ n ∈ profileNames p.syms, NameFits n
  table : (stringTable p.syms).length < 4294967296
  files : ∀ n ∈ p.files, NameFits n
  numFiles : p.files.length < 4294967296
  fileIdx : ∀ n i, p.fileIdx n = some i → i < 4294967296
  summary : SummaryFits p.summary
  wsLen : p.workingSet.length = 128
  ws : ∀ w ∈ p.workingSet, w.1 < 4294967296 ∧ w.2 < 18446744073709551616

theorem foldl_set_keys (l : List Name) (m : OMap Name Unit) (hm : OMap.Sorted m) :
    OMap.Sorted (l.foldl (fun m n => OMap.set n () m) m) ∧
      ∀ n, n ∈ (l.foldl (fun m n => OMap.set n () m) m).map Prod.fst ↔ n ∈ l ∨ n ∈ m.map Prod.fst := by
  induction l generalizing m with
  | nil => exact ⟨hm, fun n => by simp⟩
  | cons a t ih =>
    obtain ⟨h1, h2⟩ := ih (OMap.set a () m) (OMap.Sorted.upsert hm _ _)
    refine ⟨h1, fun n => ?_⟩
    rw [List.foldl_cons, h2]
    have key : n ∈ (OMap.set a () m).map Prod.fst ↔ n = a ∨ n ∈ m.map Prod.fst := by
      have hmem : ∀ (m' : OMap Name Unit), OMap.Sorted m' →
          (n ∈ m'.map Prod.fst ↔ OMap.find? m' n = some ()) := by
        intro m' hm'
        rw [OMap.find?_eq_some_iff hm', List.mem_map]
        constructor
        · rintro ⟨⟨x, u⟩, hx, rfl⟩; exact hx
        · intro h; exact ⟨_, h, rfl⟩
      rw [hmem (OMap.set a () m) (OMap.Sorted.upsert hm _ _), hmem _ hm]
      unfold OMap.set
      rw [OMap.find?_upsert hm]
      by_cases h : n = a
      · rw [if_pos h]; simp [h]
      · rw [if_neg h]; simp [h]
    rw [key, List.mem_cons]
    tauto

theorem mem_stringTable (syms : List (Name × Top)) (n : Name) :
    n ∈ stringTable syms ↔ n ∈ profileNames syms := by
  unfold stringTable
  rw [(foldl_set_keys _ _ OMap.sorted_nil).2]
  simp

theorem readFile_enc (v : Nat) (hv : v < 4294967296) (p : Profile) (hp : ProfileFits p) (force : Bool)
    (pol : Policy) (hfix : ∀ n ∈ profileNames p.syms, fixName n = n)
    (hst : ∀ q ∈ p.syms, ∀ n ∈ symTargets q.2.sym, originalName pol n = n) (b : List UInt8)
    (hw : writeFile v p = some b) (m : SymMap) (tsm : OMap Name Nat) (hm : OMap.Sorted m)
    (hupd : force = true ∨ ∀ q ∈ p.syms, ((OMap.find? m q.1).getD Sym.new).data.total = 0) :
    readFile force pol m tsm b = some {
      map := loadAll p.syms m, ts := loadTs v p.syms tsm,
      summary := if v ≥ 3 then some p.summary else none,
      files := if v ≥ 3 then p.files else [],
      names := (stringTable p.syms).map
        (fun n => (n, if v ≥ 3 then (p.fileIdx n).getD 4294967295 else 4294967295)),
      workingSet := p.workingSet.map (fun w => (w.1 / 10 * 10, w.2)) } := by
  unfold writeFile at hw
  simp only at hw
  cases hb : functionBody v (stringTable p.syms) p.syms with
  | none => simp [hb] at hw
  | some body =>
    simp only [hb, Option.map_some, Option.some.injEq] at hw
    subst hw
    unfold functionBody at hb
    cases hbt : writeTops v (stringTable p.syms) p.syms with
    | none => simp [hbt] at hb
    | some bt =>
      simp only [hbt, Option.map_some, Option.some.injEq] at hb
      subst hb
      unfold readFile
      simp only [List.append_assoc, Option.bind_eq_bind]
      rw [readU (by decide)]
      simp only [Option.bind_some, ne_eq, not_true_eq_false, if_false]
      rw [readU hv]
      simp only [Option.bind_some]
      rw [readU (by decide)]
      simp only [Option.bind_some]
      rw [readSummary_enc v _ hp.summary]
      simp only [Option.bind_some]
      rw [readNames_enc v _ _ _ hp.files hp.numFiles
        (fun n hn => hp.names n ((mem_stringTable _ _).1 hn)) hp.table
        (fun n _ i h => hp.fileIdx n i h)]
      simp only [Option.bind_some]
      have hmap : (stringTable p.syms).map (fun n => (fixName n,
          if v ≥ 3 then (p.fileIdx n).getD 4294967295 else 4294967295)) =
          (stringTable p.syms).map (fun n => (n,
          if v ≥ 3 then (p.fileIdx n).getD 4294967295 else 4294967295)) := by
        apply List.map_congr_left
        intro n hn
        rw [hfix n ((mem_stringTable _ _).1 hn)]
      rw [hmap]
      have hfst : ((stringTable p.syms).map (fun n => (n,
          if v ≥ 3 then (p.fileIdx n).getD 4294967295 else 4294967295))).map Prod.fst =
          stringTable p.syms := by
        rw [List.map_map]
        exact List.map_id _
      rw [hfst]
      unfold readFunctions
      simp only [Option.bind_eq_bind]
      rw [readU (by decide)]
      simp only [Option.bind_some, ne_eq, not_true_eq_false, if_false]
      rw [show writeUnsigned (functionLengthWord p.syms) = le32 (functionLengthWord p.syms) from rfl,
        readUnsigned_le32]
      simp only [Option.bind_some]
      rw [readU hp.count]
      simp only [Option.bind_some]
      rw [readTops_enc (cfg := ⟨stringTable p.syms, force, v, pol⟩) ⟨rfl, hp.table⟩ p.syms hp.nodup
        hp.tops hst bt hbt _ (by simp; omega) _ m tsm hm hupd]
      simp only [Option.bind_some]
      rw [readModule_enc]
      simp only [Option.bind_some]
      have := readWorkingSet_enc p.workingSet hp.wsLen hp.ws []
      rw [List.append_nil] at this
      rw [this]
      rfl

end Verif.Afdo
