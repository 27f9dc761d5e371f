import Verif.Bytes
import Mathlib.Tactic.Linarith

/-!
# C87: what propeller reads from a binary
Model of llvm_propeller_binary_content.cc.  Sections, program headers and notes as LLVM decodes them are inputs, as is the existence of files.
-/
namespace Verif.BinContent

abbrev Str := List Nat

/-- The bytes of a text. -/
def str (s : String) : Str := s.toList.map Char.toNat

/-! ## `.modinfo` -/

/-- `flat_hash_map::emplace`: an existing key stays. -/
def emplace (m : List (Str × Str)) (k v : Str) : List (Str × Str) := if k ∈ m.map Prod.fst then m else m ++ [(k, v)]

/-- The loop of `ParseModInfoSectionContent` (llvm_propeller_binary_content.cc:264-295) from the position `p`, which is given by the bytes
after it. -/
def parseFrom (p : Str) (m : List (Str × Str)) : Option (List (Str × Str)) :=
  if p = [] then some m
  else
    -- q: the first zero byte (267)
    if p.takeWhile (· ≠ 0) = [] then none
    else if p.dropWhile (· ≠ 0) = [] then none
    else
      -- eq: the first '=' before q (276)
      if (p.takeWhile (· ≠ 0)).dropWhile (· ≠ 61) = [] then none
      else if (p.takeWhile (· ≠ 0)).takeWhile (· ≠ 61) = [] then none
      else parseFrom (((p.dropWhile (· ≠ 0)).drop 1).dropWhile (· = 0))
        (emplace m ((p.takeWhile (· ≠ 0)).takeWhile (· ≠ 61)) (((p.takeWhile (· ≠ 0)).dropWhile (· ≠ 61)).drop 1))
termination_by p.length
decreasing_by
  have h1 : (((p.dropWhile (· ≠ 0)).drop 1).dropWhile (· = 0)).length ≤ ((p.dropWhile (· ≠ 0)).drop 1).length := List.IsSuffix.length_le (List.dropWhile_suffix _)
  have h2 : (p.dropWhile (· ≠ 0)).length ≤ p.length := List.IsSuffix.length_le (List.dropWhile_suffix _)
  have h3 : (p.dropWhile (· ≠ 0)).length ≠ 0 := by
    rename_i h _ _
    exact fun hc => h (List.eq_nil_of_length_eq_zero hc)
  rw [List.length_drop] at h1
  omega

/-- `ParseModInfoSectionContent` (llvm_propeller_binary_content.cc:254-300). -/
def parseModInfo (c : Str) : Option (List (Str × Str)) :=
  if c = [] then none else (parseFrom c []).bind fun m => if m = [] then none else some m

/-! ## Build id and segments -/

/-- A note of a section. -/
structure Note where
  name : Str
  desc : List Nat
  type : Nat

/-- A section; `none`: its name or its contents cannot be read.  `notes` are those that are iterated until an error. -/
structure Sec where
  name : Option Str
  type : Nat
  flags : Nat
  offset : Nat
  addr : Nat
  size : Nat
  data : Option Str
  notes : List Note

structure Phdr where
  type : Nat
  flags : Nat
  offset : Nat
  vaddr : Nat
  memsz : Nat

/-- An ELF file; `none`: the table cannot be read. -/
structure Elf where
  etype : Nat
  secs : Option (List Sec)
  phdrs : Option (List Phdr)

/-- `BinaryContent::Segment` (llvm_propeller_binary_content.h:26-30). -/
structure Segment where
  offset : Nat
  vaddr : Nat
  memsz : Nat
deriving DecidableEq

/-- `BinaryContent::KernelModule` (llvm_propeller_binary_content.h:32-47). -/
structure Module where
  text : Nat
  modinfo : List (Str × Str)
deriving DecidableEq

/-- `BinaryContent` (llvm_propeller_binary_content.h:25-62). -/
structure Content where
  file : Str
  dwp : Str
  pie : Bool
  reloc : Bool
  segments : List Segment
  buildId : Str
  module : Option Module
deriving DecidableEq

/-- A failed check stops the program; otherwise an error or a result. -/
inductive Res (α : Type) where
  | stop
  | err
  | ok (a : α)
deriving DecidableEq

/-- `hex_to_char` (llvm_propeller_binary_content.cc:121-124). -/
def hexChar (v : Nat) : Nat := if v < 10 then 48 + v else 97 + (v - 10)

/-- The string of a build id (llvm_propeller_binary_content.cc:138-143). -/
def hex (id : List Nat) : Str := id.flatMap fun t => [hexChar (t / 16 % 16), hexChar (t % 16)]

/-- The sections that are looked at (llvm_propeller_binary_content.cc:128-133); `SHT_NOTE` is 7. -/
def Sec.hasId (s : Sec) : Bool := decide (s.type = 7 ∧ (s.name = some (str ".note.gnu.build-id") ∨ s.name = some (str ".notes")))

/-- `GetBuildId` (llvm_propeller_binary_content.cc:118-157), for readable sections. -/
def buildIdOf (secs : List Sec) : Str :=
  match (secs.filter Sec.hasId).flatMap fun s => (s.notes.filter fun n => n.name = str "GNU").map fun n => hex n.desc with
  | [] => []
  | i :: _ => i

/-- `FindRelocatableTextSectionToFillSegment` (llvm_propeller_binary_content.cc:61-92): the first executable section with the name `.text`; `i`
is the number of the first section of the list.  The size goes through a 32-bit type (87). -/
def findText : List Sec → Nat → Option (Segment × Nat)
  | [], _ => none
  | s :: ss, i =>
    if s.name = none then findText ss (i + 1)
    else if s.flags / 2 % 2 = 1 ∧ s.flags / 4 % 2 = 1 then
      if s.name = some (str ".text") then some (⟨s.offset, s.addr, s.size % 2 ^ 32⟩, i) else findText ss (i + 1)
    else findText ss (i + 1)

/-- The program headers that are used (llvm_propeller_binary_content.cc:173-179): `PT_LOAD` is 1, `PF_X` is 1. -/
def execSegs (ps : List Phdr) : List Segment :=
  ps.filterMap fun p => if p.type ≠ 1 ∨ p.flags % 2 = 0 then none else some ⟨p.offset, p.vaddr, p.memsz⟩

/-- `FindSection` (llvm_propeller_binary_content.cc:188-207). -/
def findSection (secs : List Sec) (n : Str) : Option Sec := secs.find? fun s => decide (s.name = some n)

/-- `InitializeKernelModule` (llvm_propeller_binary_content.cc:210-247), for readable sections: the entries of `.modinfo`. -/
def initModule (secs : List Sec) : Option (List (Str × Str)) :=
  (findSection secs (str ".gnu.linkonce.this_module")).bind fun _ =>
    (findSection secs (str ".modinfo")).bind fun s => s.data.bind parseModInfo

/-- `GetBinaryContent` (llvm_propeller_binary_content.cc:339-408), with `ReadLoadableSegments` (159-186).  `elf` is `none` if the file is
unreadable or not an ELF file; `dwpExists`: there is a file with the name of the binary and `.dwp`. -/
def getContent (file : Str) (dwpExists : Bool) (elf : Option Elf) : Res Content :=
  match elf with
  | none => .err
  | some e =>
    match e.secs with
    | none => .stop
    | some secs =>
      if e.etype = 1 then
        if ¬ str ".ko" <:+ file then .err
        else
          match initModule secs with
          | none => .err
          | some mi =>
            match findText secs 0 with
            | none => .err
            | some (g, i) => .ok ⟨file, if dwpExists then file ++ str ".dwp" else [], false, true, [g], buildIdOf secs, some ⟨i, mi⟩⟩
      else
        match e.phdrs with
        | none => .err
        | some ps =>
          if execSegs ps = [] then .err
          else .ok ⟨file, if dwpExists then file ++ str ".dwp" else [], decide (e.etype = 3), false, execSegs ps, buildIdOf secs, none⟩

/-! ## Specification -/

/-- An entry of `.modinfo`: a key, a value, and how many more zero bytes than one follow. -/
structure ModEntry where
  key : Str
  value : Str
  extra : Nat

/-- A key is not empty and has no `=`; no byte is zero. -/
structure ModEntry.Ok (e : ModEntry) : Prop where
  nonempty : e.key ≠ []
  noEq : 61 ∉ e.key
  noZero : 0 ∉ e.key ∧ 0 ∉ e.value

/-- The bytes of an entry: `key=value` and zeros. -/
def ModEntry.bytes (e : ModEntry) : Str := e.key ++ 61 :: e.value ++ List.replicate (e.extra + 1) 0

/-- The value of the first entry with the key. -/
def valueOf (es : List ModEntry) (k : Str) : Option Str := (es.find? fun e => decide (e.key = k)).map ModEntry.value

/-! ## Proofs: `.modinfo` -/

theorem takeWhile_run {p : Nat → Bool} {a b : Str} (ha : ∀ x ∈ a, p x = true) (hb : ∀ x, b.head? = some x → p x = false) :
    (a ++ b).takeWhile p = a ∧ (a ++ b).dropWhile p = b := by
  induction a with
  | nil =>
    cases b with
    | nil => exact ⟨rfl, rfl⟩
    | cons x t =>
      have := hb x rfl
      simp [this]
  | cons x t ih =>
    obtain ⟨h1, h2⟩ := ih (fun y hy => ha y (by simp [hy]))
    have hx := ha x (by simp)
    simp only [List.cons_append]
    rw [List.takeWhile_cons, List.dropWhile_cons, if_pos hx, if_pos hx, h1, h2]
    exact ⟨rfl, rfl⟩

theorem head_dropWhile {p : Nat → Bool} (l : Str) (x : Nat) (t : Str) (h : l.dropWhile p = x :: t) : p x = false := by
  have := List.head?_dropWhile_not p l
  rw [h] at this
  simpa using this

theorem mem_takeWhile {p : Nat → Bool} (l : Str) : ∀ x ∈ l.takeWhile p, p x = true := by
  induction l with
  | nil => simp
  | cons y t ih =>
    intro x hx
    rw [List.takeWhile_cons] at hx
    split at hx
    · rename_i h
      rcases List.mem_cons.1 hx with rfl | hx
      · exact h
      · exact ih x hx
    · cases hx

theorem dropWhile_zeros (l : Str) : ∃ n, l = List.replicate n 0 ++ l.dropWhile (· = 0) := by
  induction l with
  | nil => exact ⟨0, rfl⟩
  | cons x t ih =>
    rw [List.dropWhile_cons]
    split
    · rename_i h
      have hx : x = 0 := by simpa using h
      obtain ⟨n, hn⟩ := ih
      exact ⟨n + 1, by rw [List.replicate_succ, List.cons_append, ← hn, hx]⟩
    · exact ⟨0, rfl⟩

/-- The entries read so far, as a map. -/
def addEntries (m : List (Str × Str)) (es : List ModEntry) : List (Str × Str) := es.foldl (fun m e => emplace m e.key e.value) m

/-- One entry at the beginning. -/
theorem parseFrom_entry (e : ModEntry) (he : e.Ok) (rest : Str) (hr : rest.head? ≠ some 0) (m : List (Str × Str)) :
    parseFrom (e.bytes ++ rest) m = parseFrom rest (emplace m e.key e.value) := by
  have e0 : e.bytes ++ rest = (e.key ++ 61 :: e.value) ++ (0 :: (List.replicate e.extra 0 ++ rest)) := by
    unfold ModEntry.bytes
    rw [List.replicate_succ]
    simp
  have hrun : ∀ x ∈ e.key ++ 61 :: e.value, decide (x ≠ 0) = true := by
    intro x hx
    obtain ⟨h1, h2⟩ := he.noZero
    simp only [ne_eq, decide_eq_true_eq]
    rintro rfl
    simp only [List.mem_append, List.mem_cons] at hx
    rcases hx with h | h | h
    · exact h1 h
    · cases h
    · exact h2 h
  obtain ⟨t1, d1⟩ := takeWhile_run (p := fun x => decide (x ≠ 0)) (b := 0 :: (List.replicate e.extra 0 ++ rest)) hrun (by simp)
  obtain ⟨t2, d2⟩ := takeWhile_run (p := fun x => decide (x ≠ 61)) (a := e.key) (b := 61 :: e.value)
    (fun x hx => by
      simp only [ne_eq, decide_eq_true_eq]
      rintro rfl
      exact he.noEq hx) (by simp)
  obtain ⟨_, d3⟩ := takeWhile_run (p := fun x => decide (x = 0)) (a := List.replicate e.extra 0) (b := rest)
    (fun x hx => by simpa using (List.mem_replicate.1 hx).2)
    (fun x hx => by
      simp only [decide_eq_false_iff_not]
      rintro rfl
      exact hr hx)
  conv => lhs; rw [parseFrom]
  rw [e0, if_neg (by simp), t1, d1, if_neg (by simp), if_neg (by simp), t2, d2, if_neg (by simp), if_neg he.nonempty]
  simp only [List.drop_succ_cons, List.drop_zero]
  rw [d3]

/-- All entries of a section. -/
theorem parseFrom_entries (es : List ModEntry) (hes : ∀ e ∈ es, e.Ok) (m : List (Str × Str)) :
    parseFrom (es.flatMap ModEntry.bytes) m = some (addEntries m es) := by
  induction es generalizing m with
  | nil =>
    rw [List.flatMap_nil, parseFrom, if_pos rfl]
    rfl
  | cons e t ih =>
    rw [List.flatMap_cons, parseFrom_entry e (hes e (by simp)), ih (fun x hx => hes x (by simp [hx]))]
    · rfl
    · cases t with
      | nil => simp
      | cons f t =>
        have hf := hes f (by simp)
        intro h
        rw [List.flatMap_cons] at h
        have hk := hf.nonempty
        cases hkk : f.key with
        | nil => exact hk hkk
        | cons x y =>
          unfold ModEntry.bytes at h
          rw [hkk] at h
          simp only [List.cons_append, List.head?_cons, Option.some.injEq] at h
          apply hf.noZero.1
          rw [hkk, h]
          simp

/-- What is accepted is a sequence of entries. -/
theorem parseFrom_sound (p : Str) (m r : List (Str × Str)) (h : parseFrom p m = some r) :
    ∃ es : List ModEntry, (∀ e ∈ es, e.Ok) ∧ p = es.flatMap ModEntry.bytes ∧ r = addEntries m es := by
  induction hn : p.length using Nat.strong_induction_on generalizing p m with
  | _ n ih =>
    rw [parseFrom] at h
    split at h
    · rename_i hp
      cases h
      exact ⟨[], by simp, by simp [hp], rfl⟩
    · split at h
      · cases h
      · split at h
        · cases h
        · rename_i h1 h2
          split at h
          · cases h
          · split at h
            · cases h
            · rename_i h3 h4
              have hp := List.takeWhile_append_dropWhile (p := fun x : Nat => decide (x ≠ 0)) (l := p)
              generalize hrun : p.takeWhile (fun x : Nat => decide (x ≠ 0)) = run at h h1 h3 h4 hp
              generalize hrest : p.dropWhile (fun x : Nat => decide (x ≠ 0)) = rest at h h2 hp
              have hr := List.takeWhile_append_dropWhile (p := fun x : Nat => decide (x ≠ 61)) (l := run)
              have hrun0 : ∀ x ∈ run, x ≠ 0 := fun x hx => by
                rw [← hrun] at hx
                simpa using mem_takeWhile _ x hx
              have hkey : ∀ x ∈ run.takeWhile (fun x : Nat => decide (x ≠ 61)), x ≠ 61 := fun x hx => by simpa using mem_takeWhile _ x hx
              generalize hk : run.takeWhile (fun x : Nat => decide (x ≠ 61)) = key at h h4 hr hkey
              generalize hv : run.dropWhile (fun x : Nat => decide (x ≠ 61)) = eqv at h h3 hr
              cases rest with
              | nil => exact absurd rfl h2
              | cons z rest' =>
                have hz : z = 0 := by
                  have := head_dropWhile _ _ _ hrest
                  simpa using this
                cases eqv with
                | nil => exact absurd rfl h3
                | cons q value =>
                  have hq : q = 61 := by
                    have := head_dropWhile _ _ _ hv
                    simpa using this
                  subst hz
                  subst hq
                  simp only [List.drop_succ_cons, List.drop_zero] at h
                  obtain ⟨k, hk0⟩ := dropWhile_zeros rest'
                  have hlen : (rest'.dropWhile (fun x : Nat => decide (x = 0))).length < n := by
                    have := (List.dropWhile_suffix (fun x : Nat => decide (x = 0)) (l := rest')).length_le
                    have h5 := congrArg List.length hp
                    rw [List.length_append, List.length_cons] at h5
                    omega
                  obtain ⟨es, g1, g2, g3⟩ := ih _ hlen _ _ h rfl
                  refine ⟨⟨key, value, k⟩ :: es, ?_, ?_, ?_⟩
                  · intro e he
                    rcases List.mem_cons.1 he with rfl | he
                    · refine ⟨h4, fun hc => hkey 61 hc rfl, fun hc => hrun0 0 ?_ rfl, fun hc => hrun0 0 ?_ rfl⟩
                      · rw [← hr]; simp [hc]
                      · rw [← hr]; simp [hc]
                    · exact g1 e he
                  · rw [List.flatMap_cons, ← g2, ← hp, ← hr]
                    unfold ModEntry.bytes
                    conv => lhs; rw [hk0]
                    rw [List.replicate_succ]
                    simp
                  · rw [g3]
                    rfl

theorem emplace_find (m : List (Str × Str)) (k v q : Str) :
    (emplace m k v).lookup q = ((m.lookup q).or (if q = k then some v else none)) := by
  unfold emplace
  split
  · rename_i h
    by_cases hq : q = k
    · subst hq
      have : (m.lookup q).isSome := by
        rw [List.lookup_isSome_iff]
        obtain ⟨e, he, hee⟩ := List.mem_map.1 h
        exact ⟨e, he, by simp [hee]⟩
      rw [if_pos rfl, Option.or_of_isSome this]
    · simp [hq]
  · rw [List.lookup_append]
    congr 1
    by_cases hq : q = k
    · simp [hq]
    · have : (q == k) = false := by simpa using hq
      simp [List.lookup, this, hq]

theorem addEntries_lookup (m : List (Str × Str)) (es : List ModEntry) (q : Str) :
    (addEntries m es).lookup q = (m.lookup q).or (valueOf es q) := by
  induction es generalizing m with
  | nil => simp [addEntries, valueOf]
  | cons e t ih =>
    have : addEntries m (e :: t) = addEntries (emplace m e.key e.value) t := rfl
    rw [this, ih, emplace_find, Option.or_assoc]
    congr 1
    unfold valueOf
    rw [List.find?_cons]
    by_cases h : e.key = q
    · simp [h]
    · have : ¬ q = e.key := fun hc => h hc.symm
      simp [h, this]

theorem emplace_nodup (m : List (Str × Str)) (k v : Str) (h : (m.map Prod.fst).Nodup) : ((emplace m k v).map Prod.fst).Nodup := by
  unfold emplace
  split
  · exact h
  · rename_i hk
    rw [List.map_append, List.nodup_append]
    refine ⟨h, by simp, ?_⟩
    intro a ha b hb
    simp only [List.map_cons, List.map_nil, List.mem_singleton] at hb
    rintro rfl
    exact hk (hb ▸ ha)

theorem addEntries_nodup (es : List ModEntry) (m : List (Str × Str)) (h : (m.map Prod.fst).Nodup) : ((addEntries m es).map Prod.fst).Nodup := by
  induction es generalizing m with
  | nil => exact h
  | cons e t ih => exact ih _ (emplace_nodup m _ _ h)

/-- **C87** (`.modinfo`). For every byte string, parsing succeeds exactly if it is a nonempty sequence of entries `key=value`, each followed by at
least one zero byte; the result has each key once, with the value of its first entry. -/
theorem modinfo_exact (c : Str) :
    ((parseModInfo c).isSome ↔ ∃ es : List ModEntry, es ≠ [] ∧ (∀ e ∈ es, e.Ok) ∧ c = es.flatMap ModEntry.bytes) ∧
    ∀ es : List ModEntry, es ≠ [] → (∀ e ∈ es, e.Ok) → ∀ m, parseModInfo (es.flatMap ModEntry.bytes) = some m →
      (m.map Prod.fst).Nodup ∧ ∀ k, m.lookup k = valueOf es k := by
  have hne : ∀ es : List ModEntry, es ≠ [] → addEntries [] es ≠ [] := by
    intro es h hc
    cases es with
    | nil => exact h rfl
    | cons e t =>
      have := addEntries_lookup [] (e :: t) e.key
      rw [hc] at this
      simp [valueOf] at this
  have hnb : ∀ es : List ModEntry, es ≠ [] → es.flatMap ModEntry.bytes ≠ [] := by
    intro es h hc
    cases es with
    | nil => exact h rfl
    | cons e t =>
      rw [List.flatMap_cons] at hc
      unfold ModEntry.bytes at hc
      simp at hc
  refine ⟨⟨fun h => ?_, ?_⟩, ?_⟩
  · obtain ⟨m, hm⟩ := Option.isSome_iff_exists.1 h
    unfold parseModInfo at hm
    split at hm
    · cases hm
    · rename_i hc
      obtain ⟨r, hr, _⟩ := Option.bind_eq_some_iff.1 hm
      obtain ⟨es, h1, h2, _⟩ := parseFrom_sound _ _ _ hr
      refine ⟨es, ?_, h1, h2⟩
      rintro rfl
      exact hc h2
  · rintro ⟨es, h1, h2, rfl⟩
    unfold parseModInfo
    rw [if_neg (hnb es h1), parseFrom_entries es h2, Option.bind_some, if_neg (hne es h1)]
    rfl
  · intro es h1 h2 m hm
    unfold parseModInfo at hm
    rw [if_neg (hnb es h1), parseFrom_entries es h2, Option.bind_some, if_neg (hne es h1)] at hm
    cases hm
    exact ⟨addEntries_nodup es [] (by simp), fun k => by rw [addEntries_lookup]; simp⟩

/-! ## Proofs: build id -/

theorem hexChar_inj {a b : Nat} (ha : a < 16) (hb : b < 16) (h : hexChar a = hexChar b) : a = b := by
  unfold hexChar at h
  split at h <;> split at h <;> omega

/-- The string determines the build id: two hexadecimal digits for each byte. -/
theorem hex_spec (a : List Nat) :
    (hex a).length = 2 * a.length ∧ (∀ x ∈ hex a, (48 ≤ x ∧ x ≤ 57) ∨ (97 ≤ x ∧ x ≤ 102)) ∧
    ∀ b : List Nat, (∀ x ∈ a, x < 256) → (∀ x ∈ b, x < 256) → hex a = hex b → a = b := by
  refine ⟨?_, ?_, ?_⟩
  · induction a with
    | nil => rfl
    | cons x t ih =>
      unfold hex at ih ⊢
      rw [List.flatMap_cons, List.length_append, ih]
      simp only [List.length_cons, List.length_nil]
      omega
  · intro x hx
    obtain ⟨t, _, ht⟩ := List.mem_flatMap.1 hx
    simp only [List.mem_cons, List.not_mem_nil, or_false] at ht
    unfold hexChar at ht
    rcases ht with rfl | rfl <;> split <;> omega
  · induction a with
    | nil =>
      intro b _ _ h
      cases b with
      | nil => rfl
      | cons y t => simp [hex] at h
    | cons x t ih =>
      intro b ha hb h
      cases b with
      | nil => simp [hex] at h
      | cons y u =>
        have h' : hexChar (x / 16 % 16) :: hexChar (x % 16) :: hex t = hexChar (y / 16 % 16) :: hexChar (y % 16) :: hex u := h
        simp only [List.cons.injEq] at h'
        obtain ⟨h1, h2, h3⟩ := h'
        have e1 := hexChar_inj (Nat.mod_lt _ (by decide)) (Nat.mod_lt _ (by decide)) h1
        have e2 := hexChar_inj (Nat.mod_lt _ (by decide)) (Nat.mod_lt _ (by decide)) h2
        have hx := ha x (by simp)
        have hy := hb y (by simp)
        rw [ih u (fun z hz => ha z (by simp [hz])) (fun z hz => hb z (by simp [hz])) h3]
        congr 1
        omega

/-- The notes that can be a build id, in the order of the file. -/
def idNotes (secs : List Sec) : List Note :=
  (secs.filter fun s => decide (s.type = 7 ∧ (s.name = some (str ".note.gnu.build-id") ∨ s.name = some (str ".notes")))).flatMap fun s =>
    s.notes.filter fun n => n.name = str "GNU"

/-- The build id: that of the first note named GNU of the sections `.note.gnu.build-id` and `.notes`. -/
theorem buildId_spec (secs : List Sec) :
    (idNotes secs = [] → buildIdOf secs = []) ∧ ∀ n ns, idNotes secs = n :: ns → buildIdOf secs = hex n.desc := by
  have h : ((secs.filter Sec.hasId).flatMap fun s => (s.notes.filter fun n => n.name = str "GNU").map fun n => hex n.desc) =
      (idNotes secs).map fun n => hex n.desc := by
    unfold idNotes
    rw [List.map_flatMap]
    rfl
  unfold buildIdOf
  rw [h]
  refine ⟨fun h0 => by rw [h0]; rfl, fun n ns h0 => by rw [h0]; rfl⟩

/-- If the only note named GNU of these sections is a build id, it is that. -/
theorem buildId_correct (secs : List Sec) (n : Note) (h : idNotes secs = [n]) : buildIdOf secs = hex n.desc :=
  (buildId_spec secs).2 n [] h

/-! ## Proofs: segments -/

theorem findText_iff (secs : List Sec) (k : Nat) (g : Segment) (i : Nat) :
    findText secs k = some (g, i) ↔ ∃ pre s post, secs = pre ++ s :: post ∧ i = k + pre.length ∧
      (s.name = some (str ".text") ∧ s.flags / 2 % 2 = 1 ∧ s.flags / 4 % 2 = 1) ∧
      (∀ t ∈ pre, ¬ (t.name = some (str ".text") ∧ t.flags / 2 % 2 = 1 ∧ t.flags / 4 % 2 = 1)) ∧ g = ⟨s.offset, s.addr, s.size % 2 ^ 32⟩ := by
  induction secs generalizing k with
  | nil => simp [findText]
  | cons s ss ih =>
    by_cases hs : s.name = some (str ".text") ∧ s.flags / 2 % 2 = 1 ∧ s.flags / 4 % 2 = 1
    · rw [findText, if_neg (by simp [hs.1]), if_pos hs.2, if_pos hs.1]
      constructor
      · intro h
        simp only [Option.some.injEq, Prod.mk.injEq] at h
        exact ⟨[], s, ss, rfl, by simp [h.2], hs, by simp, h.1.symm⟩
      · rintro ⟨pre, s', post, e, rfl, h1, h2, rfl⟩
        cases pre with
        | nil =>
          simp only [List.nil_append, List.cons.injEq] at e
          obtain ⟨rfl, rfl⟩ := e
          rfl
        | cons p pre =>
          simp only [List.cons_append, List.cons.injEq] at e
          obtain ⟨rfl, rfl⟩ := e
          exact absurd hs (h2 s (by simp))
    · have e0 : findText (s :: ss) k = findText ss (k + 1) := by
        rw [findText]
        split
        · rfl
        · split
          · rename_i hf
            rw [if_neg fun hc => hs ⟨hc, hf⟩]
          · rfl
      rw [e0, ih]
      constructor
      · rintro ⟨pre, s', post, rfl, rfl, h1, h2, h3⟩
        refine ⟨s :: pre, s', post, rfl, by simp; omega, h1, fun t ht => ?_, h3⟩
        rcases List.mem_cons.1 ht with rfl | ht
        · exact hs
        · exact h2 t ht
      · rintro ⟨pre, s', post, e, rfl, h1, h2, h3⟩
        cases pre with
        | nil =>
          simp only [List.nil_append, List.cons.injEq] at e
          obtain ⟨rfl, rfl⟩ := e
          exact absurd h1 hs
        | cons p pre =>
          simp only [List.cons_append, List.cons.injEq] at e
          obtain ⟨rfl, rfl⟩ := e
          exact ⟨pre, s', post, rfl, by simp; omega, h1, fun t ht => h2 t (by simp [ht]), h3⟩

/-- A loadable and executable program header. -/
def Phdr.Exec (p : Phdr) : Prop := p.type = 1 ∧ p.flags % 2 = 1

instance (p : Phdr) : Decidable p.Exec := by unfold Phdr.Exec; infer_instance

theorem execSegs_eq (ps : List Phdr) : execSegs ps = (ps.filter fun p => decide p.Exec).map fun p => ⟨p.offset, p.vaddr, p.memsz⟩ := by
  unfold execSegs
  induction ps with
  | nil => rfl
  | cons p t ih =>
    rw [List.filterMap_cons, ih]
    by_cases h : p.Exec
    · rw [List.filter_cons_of_pos (by simp [h]), if_neg (by unfold Phdr.Exec at h; omega)]
      rfl
    · rw [List.filter_cons_of_neg (by simp [h]), if_pos (by unfold Phdr.Exec at h; omega)]

/-! ## The whole -/

/-- What is read from a binary that is not relocatable: the loadable, executable segments in order, of which there is one. -/
structure ReadsExec (file : Str) (e : Elf) (secs : List Sec) (c : Content) : Prop where
  headers : ∃ ps, e.phdrs = some ps ∧ c.segments = (ps.filter fun p => decide p.Exec).map (fun p => ⟨p.offset, p.vaddr, p.memsz⟩) ∧ ∃ p ∈ ps, p.Exec
  plain : c.file = file ∧ c.pie = decide (e.etype = 3) ∧ c.reloc = false ∧ c.module = none ∧ c.buildId = buildIdOf secs

/-- What is read from a kernel module: its first executable section `.text` and its `.modinfo`. -/
structure ReadsModule (file : Str) (secs : List Sec) (c : Content) : Prop where
  named : ∃ x, file = x ++ str ".ko"
  linkonce : ∃ s ∈ secs, s.name = some (str ".gnu.linkonce.this_module")
  info : ∃ pre s post d m t, secs = pre ++ s :: post ∧ s.name = some (str ".modinfo") ∧ (∀ t ∈ pre, t.name ≠ some (str ".modinfo")) ∧
    s.data = some d ∧ parseModInfo d = some m ∧ c.module = some ⟨t, m⟩
  text : ∃ pre s post m, secs = pre ++ s :: post ∧ (s.name = some (str ".text") ∧ s.flags / 2 % 2 = 1 ∧ s.flags / 4 % 2 = 1) ∧
    (∀ t ∈ pre, ¬ (t.name = some (str ".text") ∧ t.flags / 2 % 2 = 1 ∧ t.flags / 4 % 2 = 1)) ∧
    c.segments = [⟨s.offset, s.addr, s.size % 2 ^ 32⟩] ∧ c.module = some ⟨pre.length, m⟩
  plain : c.file = file ∧ c.pie = false ∧ c.reloc = true ∧ c.buildId = buildIdOf secs

theorem findSection_iff (secs : List Sec) (n : Str) (s : Sec) :
    findSection secs n = some s ↔ ∃ pre post, secs = pre ++ s :: post ∧ s.name = some n ∧ ∀ t ∈ pre, t.name ≠ some n := by
  unfold findSection
  rw [List.find?_eq_some_iff_append]
  simp only [decide_eq_true_eq, Bool.not_eq_true', decide_eq_false_iff_not]
  constructor
  · rintro ⟨h, pre, post, e, hp⟩
    exact ⟨pre, post, e, h, hp⟩
  · rintro ⟨pre, post, e, h, hp⟩
    exact ⟨h, pre, post, e, hp⟩

/-- **C87.** For every file with a readable section table: reading succeeds with `c` exactly if it is not relocatable and `c` has its loadable and
executable segments (at least one), or it is a kernel module and `c` has its text section and its `.modinfo`; and `c.dwp` is the existing package. -/
theorem content_exact (file : Str) (dwpExists : Bool) (e : Elf) (secs : List Sec) (hs : e.secs = some secs) (c : Content) :
    getContent file dwpExists (some e) = .ok c ↔
      c.dwp = (if dwpExists then file ++ str ".dwp" else []) ∧
      if e.etype = 1 then ReadsModule file secs c else ReadsExec file e secs c := by
  unfold getContent
  simp only [hs]
  split
  · split
    · rename_i hko
      constructor
      · intro h; cases h
      · rintro ⟨_, h⟩
        obtain ⟨x, hx⟩ := h.named
        exact absurd ⟨x, hx.symm⟩ hko
    · rename_i hko
      have hko' : str ".ko" <:+ file := by
        by_contra hc
        exact hko hc
      cases hi : initModule secs with
      | none =>
        constructor
        · intro h; cases h
        · rintro ⟨_, h⟩
          exfalso
          obtain ⟨s, hs1, hs2⟩ := h.linkonce
          obtain ⟨pre, s', post, d, m, t, h1, h2, h3, h4, h5, _⟩ := h.info
          have l1 : (findSection secs (str ".gnu.linkonce.this_module")).isSome := by
            unfold findSection
            rw [List.find?_isSome]
            exact ⟨s, hs1, by simpa using hs2⟩
          obtain ⟨s0, hs0⟩ := Option.isSome_iff_exists.1 l1
          have l2 := (findSection_iff secs (str ".modinfo") s').2 ⟨pre, post, h1, h2, h3⟩
          unfold initModule at hi
          rw [hs0, Option.bind_some, l2, Option.bind_some, h4, Option.bind_some, h5] at hi
          cases hi
      | some mi =>
        unfold initModule at hi
        obtain ⟨s0, hs0, hi⟩ := Option.bind_eq_some_iff.1 hi
        obtain ⟨s1, hs1, hi⟩ := Option.bind_eq_some_iff.1 hi
        obtain ⟨d, hd, hi⟩ := Option.bind_eq_some_iff.1 hi
        obtain ⟨pre1, post1, e1, n1, f1⟩ := (findSection_iff _ _ _).1 hs1
        cases ht : findText secs 0 with
        | none =>
          constructor
          · intro h; cases h
          · rintro ⟨_, h⟩
            exfalso
            obtain ⟨pre, s, post, m, h1, h2, h3, h4, h5⟩ := h.text
            have := (findText_iff secs 0 _ _).2 ⟨pre, s, post, h1, rfl, h2, h3, rfl⟩
            rw [ht] at this
            cases this
        | some gi =>
          obtain ⟨g, i⟩ := gi
          obtain ⟨pre, s, post, h1, h2, h3, h4, h5⟩ := (findText_iff secs 0 _ _).1 ht
          simp only [Res.ok.injEq]
          constructor
          · rintro rfl
            refine ⟨rfl, ?_⟩
            obtain ⟨x, hx⟩ := hko'
            have hm0 := (findSection_iff _ _ _).1 hs0
            obtain ⟨p0, q0, e0, n0, _⟩ := hm0
            exact ⟨⟨x, hx.symm⟩, ⟨s0, by rw [e0]; simp, n0⟩, ⟨pre1, s1, post1, d, mi, i, e1, n1, f1, hd, hi, rfl⟩,
              ⟨pre, s, post, mi, h1, h3, h4, by simp [h5], by simp [h2]⟩, rfl, rfl, rfl, rfl⟩
          · rintro ⟨hdwp, h⟩
            obtain ⟨pre', s', post', d', m', t', g1, g2, g3, g4, g5, g6⟩ := h.info
            obtain ⟨pre2, s2, post2, m2, k1, k2, k3, k4, k5⟩ := h.text
            have l2 := (findSection_iff secs (str ".modinfo") s').2 ⟨pre', post', g1, g2, g3⟩
            rw [hs1] at l2
            cases l2
            rw [hd] at g4
            cases g4
            rw [hi] at g5
            cases g5
            have l3 := (findText_iff secs 0 _ _).2 ⟨pre2, s2, post2, k1, rfl, k2, k3, rfl⟩
            rw [ht] at l3
            simp only [Option.some.injEq, Prod.mk.injEq, Nat.zero_add] at l3
            obtain ⟨p1, p2, p3, p4⟩ := h.plain
            rw [g6] at k5
            simp only [Option.some.injEq, Module.mk.injEq] at k5
            obtain ⟨cf, cd, cp, cr, cs, cb, cm⟩ := c
            simp only at p1 p2 p3 p4 hdwp k4 g6
            subst p1 p2 p3 p4 hdwp
            rw [k4, g6, k5.1, l3.1, l3.2]
  · cases hp : e.phdrs with
    | none =>
      constructor
      · intro h; cases h
      · rintro ⟨_, h⟩
        obtain ⟨ps, h1, _⟩ := h.headers
        rw [hp] at h1
        cases h1
    | some ps =>
      simp only
      have hnil : execSegs ps = [] ↔ ¬ ∃ p ∈ ps, p.Exec := by
        rw [execSegs_eq, List.map_eq_nil_iff, List.filter_eq_nil_iff]
        simp
      split
      · rename_i h0
        constructor
        · intro h; cases h
        · rintro ⟨_, h⟩
          obtain ⟨ps', h1, _, h3⟩ := h.headers
          rw [hp] at h1
          cases h1
          exact absurd h3 (hnil.1 h0)
      · rename_i h0
        simp only [Res.ok.injEq]
        constructor
        · rintro rfl
          refine ⟨rfl, ⟨ps, hp, execSegs_eq ps, ?_⟩, rfl, rfl, rfl, rfl, rfl⟩
          by_contra hc
          exact h0 (hnil.2 hc)
        · rintro ⟨hdwp, h⟩
          obtain ⟨ps', h1, h2, _⟩ := h.headers
          rw [hp] at h1
          cases h1
          obtain ⟨p1, p2, p3, p4, p5⟩ := h.plain
          obtain ⟨cf, cd, cp, cr, cs, cb, cm⟩ := c
          simp only at p1 p2 p3 p4 p5 hdwp h2
          subst p1 p2 p3 p4 p5 hdwp
          rw [h2, execSegs_eq]

/-- A file that is unreadable or not an ELF file is an error; one whose section table is unreadable stops the program. -/
theorem content_unreadable (file : Str) (dwpExists : Bool) :
    getContent file dwpExists none = .err ∧ ∀ e : Elf, e.secs = none → getContent file dwpExists (some e) = .stop := by
  refine ⟨rfl, fun e h => ?_⟩
  unfold getContent
  simp [h]

/-! ## Examples -/

/-- Two entries, the first with more than one zero byte after it; then a second value for the same key. -/
theorem ex_modinfo : parseModInfo (str "name=a" ++ [0, 0] ++ str "k=b=c" ++ [0] ++ str "name=z" ++ [0]) = some [(str "name", str "a"), (str "k", str "b=c")] ∧
    parseModInfo (str "name=a") = none ∧ parseModInfo (0 :: str "name=a" ++ [0]) = none ∧ parseModInfo (str "=a" ++ [0]) = none ∧
    parseModInfo (str "name" ++ [0]) = none ∧ parseModInfo (str "name=" ++ [0]) = some [(str "name", [])] := by
  decide +kernel

def exSec (n : String) (fl : Nat) (d : Option Str) : Sec := ⟨some (str n), 1, fl, 64, 0, 100, d, []⟩

/-- A kernel module. -/
def exKo : Elf := ⟨1, some [exSec ".modinfo" 2 (some (str "name=a" ++ [0])), exSec ".gnu.linkonce.this_module" 3 none, exSec ".text" 6 none], none⟩

theorem ex_module : getContent (str "a.ko") false (some exKo) =
    .ok ⟨str "a.ko", [], false, true, [⟨64, 0, 100⟩], [], some ⟨2, [(str "name", str "a")]⟩⟩ ∧
    getContent (str "a.o") false (some exKo) = .err := by
  decide +kernel

/-- An executable with a build id. -/
theorem ex_exec : getContent (str "a") true (some ⟨3, some [⟨some (str ".note.gnu.build-id"), 7, 2, 0, 0, 0, none, [⟨str "GNU", [0xab, 0x01], 3⟩]⟩],
      some [⟨1, 4, 0, 0, 10⟩, ⟨1, 5, 16, 32, 64⟩]⟩) =
    .ok ⟨str "a", str "a.dwp", true, false, [⟨16, 32, 64⟩], str "ab01", none⟩ := by
  decide +kernel

/-- The type of the notes is not looked at: in a kernel image, whose notes are all in one section, the build id is that of another note if one of
the same owner comes first. -/
theorem note_type_violated : buildIdOf [⟨some (str ".notes"), 7, 2, 0, 0, 0, none, [⟨str "GNU", [0, 0, 0, 0], 1⟩, ⟨str "GNU", [0xab, 0x01], 3⟩]⟩] =
    str "00000000" := by
  decide +kernel

/-- A text section of 4 GiB or more of a kernel module is cut. -/
theorem text_size_violated : findText [⟨some (str ".text"), 1, 6, 64, 0, 2 ^ 32 + 8, none, []⟩] 0 = some (⟨64, 0, 8⟩, 0) := by
  decide +kernel

/-- The documentation asks for `.text` to be the first executable section; this is not checked. -/
theorem first_exec_violated : findText [exSec ".init.text" 6 none, exSec ".text" 6 none] 0 = some (⟨64, 0, 100⟩, 1) := by
  decide +kernel
end Verif.BinContent
