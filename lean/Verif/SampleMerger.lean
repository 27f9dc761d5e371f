import Verif.CreateGcov

/-!
# C96: the whole `sample_merger` command (sample_merger.cc:26-41; profile_creator.cc:274-299)

From the flags and the files to the exit status and the text profile on disk, for all profilers.  Counts are added modulo 2^64 here
(`Verif.Sample` ignores the overflow).  The build without LLVM, as in C94.
-/
namespace Verif.SampleMerger
open Verif Verif.Sample Verif.CreateGcov

/-- A profile to merge: its file name and what is in the file, as in `CreateGcov.Files`. -/
structure Input where
  name : List Nat
  text : Option (List Char)
  perf : Option PerfRead.PerfFile
  spe : Option (List SpeSimple.Ev)

/-- The binary (`--binary`) and the output file (`--output_file`): its contents if it can be opened for reading, whether it can be opened
for writing, and how many characters the device then takes. -/
structure World where
  path : List Nat
  disk : Option (List Nat)
  existing : Option (List Char)
  canWrite : Bool
  room : Nat

/-- The files `ReadSample` uses for an input. -/
def filesOf (W : World) (i : Input) : Files := ⟨W.path, W.disk, i.text, i.perf, i.spe, true, true⟩

/-- The counts as `uint64_t`. -/
def wrapMap {K : Type} (m : OMap K Nat) : OMap K Nat := m.map fun p => (p.1, p.2 % 2 ^ 64)

/-- The same for the three maps. -/
def wrap (m : Maps) : Maps := ⟨wrapMap m.range, wrapMap m.addr, wrapMap m.branch⟩

/-- The loop of `MergeSample` (profile_creator.cc:287-295) with `Merge` (sample_reader.cc:221-231); `some none`: an input cannot be read;
`none`: the program stops. -/
def mergeAll (F : Flags) (W : World) : Maps → List Input → Option (Option Maps)
  | w, [] => some (some w)
  | w, i :: is =>
    if i.name = [] then mergeAll F W w is
    else
      (readSample F (filesOf W i)).bind fun
        | none => some none
        | some S => mergeAll F W (wrap (w.merge S.maps)) is

/-- `IsFileExist` and `ReadAndSetTotalCount` (profile_creator.cc:277-282; sample_reader.cc:142-155, 158-219, 259-267). -/
def readExisting (W : World) : Option Maps :=
  match W.existing with
  | none => some Maps.empty
  | some t => (readText Maps.empty t).map wrap

/-- The profiles to merge (sample_merger.cc:30-33). -/
def inputsOf (profiles : List Input) (profile : Input) : List Input := if profiles.isEmpty then [profile] else profiles

/-- The command: its exit status and the contents of the output file afterwards; `none`: the program stops.  `Write` does not look at the
results of `fprintf` and `fclose` (sample_reader.cc:233-257). -/
def run (F : Flags) (W : World) (profiles : List Input) (profile : Input) : Option (Int × Option (List Char)) :=
  match readExisting W with
  | none => some (1, W.existing)
  | some E =>
    (mergeAll F W E (inputsOf profiles profile)).bind fun
      | none => some (1, W.existing)
      | some M => if W.canWrite then some (0, some ((writeText M []).take W.room)) else some (1, W.existing)

/-! ## Specification -/

/-- Each key of one of the parts has the sum of its counts, modulo 2^64, and there are no other keys. -/
structure IsSum {K : Type} [LinearOrder K] (parts : List (OMap K Nat)) (m : OMap K Nat) : Prop where
  sorted : OMap.Sorted m
  count : ∀ k, (∃ p ∈ parts, (OMap.find? p k).isSome = true) → OMap.find? m k = some ((parts.map fun p => OMap.get0 p k).sum % 2 ^ 64)
  only : ∀ k, (∀ p ∈ parts, OMap.find? p k = none) → OMap.find? m k = none

/-- The merge of the parts. -/
structure IsMerge (parts : List Maps) (M : Maps) : Prop where
  range : IsSum (parts.map Maps.range) M.range
  addr : IsSum (parts.map Maps.addr) M.addr
  branch : IsSum (parts.map Maps.branch) M.branch

/-- The text written for `M` in full. -/
def Room (W : World) (M : Maps) : Prop := (writeText M []).length ≤ W.room

/-! ## Proofs -/

theorem find_wrap {K : Type} [LinearOrder K] (m : OMap K Nat) (k : K) : OMap.find? (wrapMap m) k = (OMap.find? m k).map (· % 2 ^ 64) := by
  unfold wrapMap
  induction m with
  | nil => rfl
  | cons x m ih =>
    simp only [List.map_cons, OMap.find?]
    by_cases h : k = x.1
    · simp [h]
    · simpa [h] using ih

theorem sorted_wrap {K : Type} [LinearOrder K] {m : OMap K Nat} (h : OMap.Sorted m) : OMap.Sorted (wrapMap m) := by
  unfold wrapMap OMap.Sorted
  unfold OMap.Sorted at h
  rw [List.pairwise_map]
  exact h

theorem isSum_of {K : Type} [LinearOrder K] {m : OMap K Nat} (h : OMap.Sorted m) : IsSum [m] (wrapMap m) where
  sorted := sorted_wrap h
  count := by
    intro k hk
    obtain ⟨p, hp, hs⟩ := hk
    rw [List.mem_singleton] at hp
    subst hp
    obtain ⟨v, hv⟩ := Option.isSome_iff_exists.1 hs
    rw [find_wrap, hv]
    simp [OMap.get0, hv]
  only := by
    intro k hk
    rw [find_wrap, hk m (by simp)]
    rfl

theorem isSum_add {K : Type} [LinearOrder K] {ps : List (OMap K Nat)} {w p : OMap K Nat} (h : IsSum ps w) (hp : OMap.Sorted p) :
    IsSum (ps ++ [p]) (wrapMap (OMap.addAll w p)) where
  sorted := sorted_wrap (OMap.Sorted.addAll h.sorted _)
  count := by
    intro k hk
    rw [find_wrap, OMap.find?_addAll h.sorted, OMap.sumAt_of_sorted hp]
    have hkey : k ∈ p.map Prod.fst ∨ (OMap.find? w k).isSome = true := by
      obtain ⟨q, hq, hs⟩ := hk
      rcases List.mem_append.1 hq with hq | hq
      · right; rw [h.count k ⟨q, hq, hs⟩]; rfl
      · rw [List.mem_singleton] at hq; subst hq; left; rwa [OMap.mem_keys_iff]
    rw [if_pos hkey]
    simp only [Option.map_some, List.map_append, List.map_cons, List.map_nil, List.sum_append, List.sum_cons, List.sum_nil, Nat.add_zero]
    by_cases hw : ∃ q ∈ ps, (OMap.find? q k).isSome = true
    · have := h.count k hw
      have e : OMap.get0 w k = (ps.map fun p => OMap.get0 p k).sum % 2 ^ 64 := by unfold OMap.get0; rw [this]; rfl
      rw [e, Nat.mod_add_mod]
    · have hn : ∀ q ∈ ps, OMap.find? q k = none := fun q hq => by
        cases hf : OMap.find? q k with
        | none => rfl
        | some v => exact absurd ⟨q, hq, by rw [hf]; rfl⟩ hw
      have e : OMap.get0 w k = 0 := by unfold OMap.get0; rw [h.only k hn]; rfl
      have e2 : (ps.map fun p => OMap.get0 p k).sum = 0 := by
        rw [List.sum_eq_zero]
        intro x hx
        obtain ⟨q, hq, rfl⟩ := List.mem_map.1 hx
        unfold OMap.get0; rw [hn q hq]; rfl
      rw [e, e2]
  only := by
    intro k hk
    rw [find_wrap, OMap.find?_addAll h.sorted]
    have h1 := h.only k fun q hq => hk q (by simp [hq])
    have h2 := hk p (by simp)
    rw [if_neg]
    · rfl
    · rw [OMap.mem_keys_iff, h1, h2]; simp

theorem isSum_nil {K : Type} [LinearOrder K] : IsSum ([] : List (OMap K Nat)) [] where
  sorted := OMap.sorted_nil
  count := by rintro k ⟨p, hp, _⟩; cases hp
  only := fun k _ => rfl

theorem isMerge_add {ps : List Maps} {w p : Maps} (h : IsMerge ps w) (hp : p.Ok) : IsMerge (ps ++ [p]) (wrap (w.merge p)) where
  range := by rw [List.map_append]; exact isSum_add h.range hp.1
  addr := by rw [List.map_append]; exact isSum_add h.addr hp.2.1
  branch := by rw [List.map_append]; exact isSum_add h.branch hp.2.2

/-- A merge is determined by its parts. -/
theorem isMerge_unique {ps qs : List Maps} (hp : ps.Perm qs) {M N : Maps} (h : IsMerge ps M) (g : IsMerge qs N) : M = N := by
  have key : ∀ {K : Type} [LinearOrder K] {a b : List (OMap K Nat)}, a.Perm b → ∀ {m n : OMap K Nat}, IsSum a m → IsSum b n → m = n := by
    intro K _ a b hab m n hm hn
    refine OMap.ext hm.sorted hn.sorted fun k => ?_
    by_cases hk : ∃ p ∈ a, (OMap.find? p k).isSome = true
    · obtain ⟨p, hpa, hs⟩ := hk
      rw [hm.count k ⟨p, hpa, hs⟩, hn.count k ⟨p, hab.mem_iff.1 hpa, hs⟩, (hab.map _).sum_eq]
    · have h0 : ∀ p ∈ a, OMap.find? p k = none := fun q hq => by
        cases hf : OMap.find? q k with
        | none => rfl
        | some v => exact absurd ⟨q, hq, by rw [hf]; rfl⟩ hk
      rw [hm.only k h0, hn.only k fun p hpb => h0 p (hab.mem_iff.2 hpb)]
  cases M; cases N
  simp only [Maps.mk.injEq]
  exact ⟨key (hp.map _) h.range g.range, key (hp.map _) h.addr g.addr, key (hp.map _) h.branch g.branch⟩

theorem scanRecords_sorted {K : Type} [LinearOrder K] (sc : List Char → Option ((K × Nat) × List Char)) :
    ∀ (n : Nat) (m : OMap K Nat) (s : List Char) (r : OMap K Nat × List Char), OMap.Sorted m → scanRecords sc n m s = some r → OMap.Sorted r.1
  | 0, m, s, r, hm, h => by simp only [scanRecords, Option.some.injEq] at h; subst h; exact hm
  | n + 1, m, s, r, hm, h => by
    simp only [scanRecords, Option.bind_eq_bind, Option.bind_eq_some_iff] at h
    obtain ⟨x, -, h⟩ := h
    exact scanRecords_sorted sc n _ _ r (OMap.Sorted.add hm _) h

theorem scanSection_sorted {K : Type} [LinearOrder K] (sc : List Char → Option ((K × Nat) × List Char)) (m : OMap K Nat) (s : List Char)
    (r : OMap K Nat × List Char) (hm : OMap.Sorted m) (h : scanSection sc m s = some r) : OMap.Sorted r.1 := by
  simp only [scanSection, Option.bind_eq_bind, Option.bind_eq_some_iff] at h
  obtain ⟨x, -, h⟩ := h
  split at h
  · cases h
  · exact scanRecords_sorted sc _ _ _ r hm h

theorem readText_ok {m : Maps} (hm : m.Ok) {s : List Char} {r : Maps} (h : readText m s = some r) : r.Ok := by
  simp only [readText, Option.bind_eq_bind, Option.bind_eq_some_iff, Option.some.injEq] at h
  obtain ⟨x, hx, y, hy, z, hz, rfl⟩ := h
  exact ⟨scanSection_sorted _ _ _ _ hm.1 hx, scanSection_sorted _ _ _ _ hm.2.1 hy, scanSection_sorted _ _ _ _ hm.2.2 hz⟩

theorem empty_ok : Maps.empty.Ok := ⟨OMap.sorted_nil, OMap.sorted_nil, OMap.sorted_nil⟩

theorem events_ok (o : PerfRead.Opts) (es : List PerfRead.PEvent) (r : PerfRead.Reader) (h : r.maps.Ok) :
    (es.foldl (PerfRead.eventP o) r).maps.Ok := by
  induction es generalizing r with
  | nil => exact h
  | cons e es ih =>
    refine ih _ ?_
    unfold PerfRead.eventP
    split
    · exact h
    · exact ⟨OMap.Sorted.addAll h.1 _, OMap.Sorted.addAll h.2.1 _, OMap.Sorted.addAll h.2.2 _⟩

theorem appendFile_ok (o : PerfRead.Opts) (r : PerfRead.Reader) (f : PerfRead.PerfFile) (h : r.maps.Ok) :
    (PerfRead.appendFile o r f).maps.Ok := by
  unfold PerfRead.appendFile
  split
  · exact events_ok o _ _ h
  · simp only
    split
    · exact h
    · exact events_ok o _ _ h

theorem record_sorted (m : SpeSimple.MMap) (rs : List SpeSimple.Record) (c : SpeSimple.Counts) (h : OMap.Sorted c.addr ∧ OMap.Sorted c.branch) :
    OMap.Sorted (rs.foldl (SpeSimple.record m) c).addr ∧ OMap.Sorted (rs.foldl (SpeSimple.record m) c).branch := by
  induction rs generalizing c with
  | nil => exact h
  | cons r rs ih =>
    refine ih _ ?_
    unfold SpeSimple.record
    simp only
    repeat' split
    all_goals first
      | exact h
      | exact ⟨h.1, OMap.Sorted.upsert h.2 _ _⟩
      | exact ⟨OMap.Sorted.upsert h.1 _ _, h.2⟩

/-- Whatever is read has sorted maps. -/
theorem readSample_ok (F : Flags) (W : Files) (S : Samples) (h : readSample F W = some (some S)) : S.maps.Ok := by
  unfold readSample at h
  cases hp : F.profiler <;> rw [hp] at h <;> simp only at h
  · rw [Option.map_eq_some_iff] at h
    obtain ⟨o, -, h⟩ := h
    rw [Option.map_eq_some_iff] at h
    obtain ⟨f, -, rfl⟩ := h
    exact appendFile_ok o _ _ empty_ok
  · rw [Option.bind_eq_some_iff] at h
    obtain ⟨o, -, h⟩ := h
    rw [Option.map_eq_some_iff] at h
    obtain ⟨r, hr, h⟩ := h
    rw [Option.map_eq_some_iff] at h
    obtain ⟨r', rfl, rfl⟩ := h
    unfold SpeSimple.read at hr
    split at hr
    · cases hr
    · split at hr
      · cases hr
      · rename_i evs _ _ m _
        split at hr
        · cases hr
        · split at hr
          · cases hr
          · rw [Option.map_eq_some_iff] at hr
            obtain ⟨l, -, hr⟩ := hr
            cases hr
            have := record_sorted m (SpeSimple.records evs) ⟨[], [], 0, 0⟩ ⟨OMap.sorted_nil, OMap.sorted_nil⟩
            exact ⟨OMap.Sorted.addAll OMap.sorted_nil _, this.1, this.2⟩
  · rw [Option.some.injEq, Option.bind_eq_some_iff] at h
    obtain ⟨t, -, h⟩ := h
    rw [Option.map_eq_some_iff] at h
    obtain ⟨r, hr, rfl⟩ := h
    exact readText_ok empty_ok hr
  · cases h
  · cases h

/-- The inputs that have a name; the others are skipped. -/
def named (is : List Input) : List Input := is.filter fun i => decide (i.name ≠ [])

/-- The samples `Ss` are what is read from the inputs that have a name, in order. -/
def AreRead (F : Flags) (W : World) (is : List Input) (Ss : List Samples) : Prop :=
  List.Forall₂ (fun i S => readSample F (filesOf W i) = some (some S)) (named is) Ss

/-- What the output file holds before: nothing if there is no such file, else a profile. -/
def Before (W : World) (Es : List Maps) : Prop :=
  (W.existing = none ∧ Es = []) ∨ ∃ t E, W.existing = some t ∧ readText Maps.empty t = some E ∧ Es = [E]

theorem mergeAll_spec (F : Flags) (W : World) (is : List Input) : ∀ (w : Maps) (ps : List Maps) (Ss : List Samples), IsMerge ps w →
    AreRead F W is Ss → ∃ M, mergeAll F W w is = some (some M) ∧ IsMerge (ps ++ Ss.map Samples.maps) M := by
  induction is with
  | nil =>
    intro w ps Ss h hr
    simp only [AreRead, named, List.filter_nil, List.forall₂_nil_left_iff] at hr
    subst hr
    exact ⟨w, rfl, by simpa using h⟩
  | cons i is ih =>
    intro w ps Ss h hr
    unfold mergeAll
    by_cases hn : i.name = []
    · rw [if_pos hn]
      refine ih w ps Ss h ?_
      simpa [AreRead, named, List.filter_cons, hn] using hr
    · rw [if_neg hn]
      simp only [AreRead, named, List.filter_cons, hn, ne_eq, not_false_eq_true, decide_true, if_true, List.forall₂_cons_left_iff] at hr
      obtain ⟨S, Ss', hS, hr', rfl⟩ := hr
      rw [hS]
      obtain ⟨M, h1, h2⟩ := ih (wrap (w.merge S.maps)) (ps ++ [S.maps]) Ss' (isMerge_add h (readSample_ok _ _ _ hS)) hr'
      exact ⟨M, h1, by simpa using h2⟩

theorem mergeAll_append (F : Flags) (W : World) (a b : List Input) : ∀ (w M : Maps), mergeAll F W w a = some (some M) →
    mergeAll F W w (a ++ b) = mergeAll F W M b := by
  induction a with
  | nil => intro w M h; simp only [mergeAll, Option.some.injEq] at h; subst h; rfl
  | cons i a ih =>
    intro w M h
    rw [List.cons_append]
    unfold mergeAll at h
    conv_lhs => unfold mergeAll
    by_cases hn : i.name = []
    · rw [if_pos hn] at h ⊢; exact ih w M h
    · rw [if_neg hn] at h ⊢
      cases hS : readSample F (filesOf W i) with
      | none => rw [hS] at h; cases h
      | some o =>
        rw [hS] at h
        cases o with
        | none => cases h
        | some S => exact ih _ M h

theorem mergeAll_world (F : Flags) (W : World) (e : Option (List Char)) (is : List Input) : ∀ w,
    mergeAll F { W with existing := e } w is = mergeAll F W w is := by
  induction is with
  | nil => intro w; rfl
  | cons i is ih =>
    intro w
    unfold mergeAll
    split
    · exact ih w
    · have : filesOf { W with existing := e } i = filesOf W i := rfl
      rw [this]
      congr 1
      funext o
      cases o with
      | none => rfl
      | some S => exact ih _

theorem before_spec (W : World) (Es : List Maps) (h : Before W Es) : ∃ E, readExisting W = some E ∧ IsMerge Es E := by
  unfold readExisting
  rcases h with ⟨h, rfl⟩ | ⟨t, E, h, ht, rfl⟩
  · rw [h]; exact ⟨_, rfl, isSum_nil, isSum_nil, isSum_nil⟩
  · rw [h]
    have hok := readText_ok empty_ok ht
    exact ⟨wrap E, by simp [ht], isSum_of hok.1, isSum_of hok.2.1, isSum_of hok.2.2⟩

theorem isMerge_ok {ps : List Maps} {M : Maps} (h : IsMerge ps M) : M.Ok := ⟨h.range.sorted, h.addr.sorted, h.branch.sorted⟩

theorem run_merged (F : Flags) (W : World) (profiles : List Input) (profile : Input) (Es : List Maps) (he : Before W Es)
    (Ss : List Samples) (hr : AreRead F W (inputsOf profiles profile) Ss) :
    ∃ E M, readExisting W = some E ∧ mergeAll F W E (inputsOf profiles profile) = some (some M) ∧ IsMerge (Es ++ Ss.map Samples.maps) M ∧
      run F W profiles profile = if W.canWrite then some (0, some ((writeText M []).take W.room)) else some (1, W.existing) := by
  obtain ⟨E, h1, h2⟩ := before_spec W Es he
  obtain ⟨M, h3, h4⟩ := mergeAll_spec F W _ E Es Ss h2 hr
  refine ⟨E, M, h1, h3, h4, ?_⟩
  unfold run
  rw [h1]
  simp only
  rw [h3]
  rfl

/-- **C96.** For every profile in the output file (or none), every list of profiles of any kind and every flag: if all of them can be read and
the output can be written, the status is 0 and the output holds, for every range, address and branch, the sum of its counts in the output
before and in all profiles, modulo 2^64, and nothing else; reading the output gives this merge back.  If the output cannot be opened, the
status is 1 and it is unchanged. -/
theorem sample_merger (F : Flags) (W : World) (profiles : List Input) (profile : Input) (Es : List Maps) (he : Before W Es)
    (Ss : List Samples) (hr : AreRead F W (inputsOf profiles profile) Ss) :
    ∃ M, IsMerge (Es ++ Ss.map Samples.maps) M ∧
      (W.canWrite = true → Room W M → run F W profiles profile = some (0, some (writeText M []))) ∧
      (W.canWrite = false → run F W profiles profile = some (1, W.existing)) ∧
      (M.Fits → readText Maps.empty (writeText M []) = some M) := by
  obtain ⟨E, M, -, -, h4, h5⟩ := run_merged F W profiles profile Es he Ss hr
  refine ⟨M, h4, fun hw hroom => ?_, fun hw => ?_, fun hf => text_profile_roundtrip M (isMerge_ok h4) hf []⟩
  · rw [h5, hw, if_pos rfl, List.take_of_length_le hroom]
  · rw [h5, hw]; rfl

/-- **C96, which profiles.** With `--profiles` those, else the one of `--profile`; names that are empty are skipped. -/
theorem inputs_spec (profiles : List Input) (profile i : Input) : i ∈ named (inputsOf profiles profile) ↔
    i.name ≠ [] ∧ (i ∈ profiles ∨ (profiles = [] ∧ i = profile)) := by
  unfold named inputsOf
  rw [List.mem_filter]
  cases profiles with
  | nil => simp [and_comm]
  | cons a l => simp [and_comm]

/-- **C96, failures.** If the output exists and holds no profile, or one of the profiles cannot be read, the status is 1 and the output is
unchanged. -/
theorem sample_merger_fails (F : Flags) (W : World) (profiles : List Input) (profile : Input) :
    (∀ t, W.existing = some t → readText Maps.empty t = none → run F W profiles profile = some (1, W.existing)) ∧
    (∀ Es, Before W Es → ∀ pre i post, inputsOf profiles profile = pre ++ i :: post → i.name ≠ [] →
      (∃ Ss, AreRead F W pre Ss) → readSample F (filesOf W i) = some none → run F W profiles profile = some (1, W.existing)) := by
  constructor
  · intro t ht hn
    unfold run readExisting
    rw [ht]
    simp only
    rw [hn]
    rfl
  · intro Es he pre i post hi hn ⟨Ss, hr⟩ hS
    obtain ⟨E, h1, h2⟩ := before_spec W Es he
    obtain ⟨M, h3, -⟩ := mergeAll_spec F W pre E Es Ss h2 hr
    unfold run
    rw [h1, hi]
    simp only
    rw [mergeAll_append F W pre (i :: post) E M h3]
    unfold mergeAll
    rw [if_neg hn, hS]
    rfl

/-- **C96, the order of the profiles does not matter.** -/
theorem sample_merger_order (F : Flags) (W : World) (a b : List Input) (profile : Input) (Es : List Maps) (he : Before W Es)
    (Ss : List Samples) (hr : AreRead F W a Ss) (hp : a.Perm b) (hne : a ≠ []) : run F W a profile = run F W b profile := by
  have ha : inputsOf a profile = a := by cases a <;> simp_all [inputsOf]
  have hb : inputsOf b profile = b := by
    cases b with
    | nil => exact absurd hp.eq_nil hne
    | cons _ _ => rfl
  have hnp : (named a).Perm (named b) := hp.filter _
  -- the samples of the permuted inputs
  have key : ∀ (xs ys : List Input), xs.Perm ys → ∀ Ss : List Samples,
      List.Forall₂ (fun i S => readSample F (filesOf W i) = some (some S)) xs Ss →
      ∃ Ts, Ss.Perm Ts ∧ List.Forall₂ (fun i S => readSample F (filesOf W i) = some (some S)) ys Ts := by
    intro xs ys h
    induction h with
    | nil => intro Ss hS; exact ⟨Ss, List.Perm.refl _, hS⟩
    | cons x h ih =>
      intro Ss hS
      rw [List.forall₂_cons_left_iff] at hS
      obtain ⟨S, Ss', h1, h2, rfl⟩ := hS
      obtain ⟨Ts, h3, h4⟩ := ih Ss' h2
      exact ⟨S :: Ts, h3.cons _, List.Forall₂.cons h1 h4⟩
    | swap x y l =>
      intro Ss hS
      rw [List.forall₂_cons_left_iff] at hS
      obtain ⟨S, Ss', h1, h2, rfl⟩ := hS
      rw [List.forall₂_cons_left_iff] at h2
      obtain ⟨T, Ss'', h3, h4, rfl⟩ := h2
      exact ⟨T :: S :: Ss'', List.Perm.swap _ _ _, List.Forall₂.cons h3 (List.Forall₂.cons h1 h4)⟩
    | trans _ _ ih1 ih2 =>
      intro Ss hS
      obtain ⟨Ts, h1, h2⟩ := ih1 Ss hS
      obtain ⟨Us, h3, h4⟩ := ih2 Ts h2
      exact ⟨Us, h1.trans h3, h4⟩
  obtain ⟨Ts, hT, hrT⟩ := key _ _ hnp Ss hr
  obtain ⟨_, M, -, -, m1, r1⟩ := run_merged F W a profile Es he Ss (by rw [ha]; exact hr)
  obtain ⟨_, N, -, -, m2, r2⟩ := run_merged F W b profile Es he Ts (by rw [hb]; exact hrT)
  rw [r1, r2, isMerge_unique ((hT.map _).append_left _) m1 m2]

theorem wrapMap_id {K : Type} (m : OMap K Nat) (h : ∀ p ∈ m, p.2 < 2 ^ 64) : wrapMap m = m := by
  unfold wrapMap
  conv_rhs => rw [← List.map_id m]
  exact List.map_congr_left fun p hp => by rw [Nat.mod_eq_of_lt (h p hp)]; rfl

/-- **C96, one run or two.** Merging the profiles `a` and then, into the result, the profiles `b` is the same as merging all at once. -/
theorem sample_merger_twice (F : Flags) (W : World) (a b : List Input) (profile : Input) (ha : a ≠ []) (hb : b ≠ []) (Es : List Maps)
    (he : Before W Es) (Ss : List Samples) (hr : AreRead F W a Ss) (hw : W.canWrite = true) :
    ∃ M, IsMerge (Es ++ Ss.map Samples.maps) M ∧ (M.Fits → Room W M → run F W a profile = some (0, some (writeText M [])) ∧
      ∀ out, run F { W with existing := some (writeText M []) } b profile = some (0, out) ↔ run F W (a ++ b) profile = some (0, out)) := by
  have ea : inputsOf a profile = a := by cases a <;> simp_all [inputsOf]
  have eb : inputsOf b profile = b := by cases b <;> simp_all [inputsOf]
  have eab : inputsOf (a ++ b) profile = a ++ b := by cases a <;> simp_all [inputsOf]
  obtain ⟨E, M, h1, h2, h3, h4⟩ := run_merged F W a profile Es he Ss (by rw [ea]; exact hr)
  refine ⟨M, h3, fun hf hroom => ⟨?_, fun out => ?_⟩⟩
  · rw [h4, hw, if_pos rfl, List.take_of_length_le hroom]
  · rw [ea] at h2
    have hE : readExisting { W with existing := some (writeText M []) } = some M := by
      unfold readExisting
      simp only
      rw [text_profile_roundtrip M (isMerge_ok h3) hf []]
      have : wrap M = M := by
        unfold wrap
        rw [wrapMap_id _ fun p hp => (hf.1 p hp).2.2, wrapMap_id _ fun p hp => (hf.2.1 p hp).2, wrapMap_id _ fun p hp => (hf.2.2.1 p hp).2.2]
      rw [Option.map_some, this]
    unfold run
    rw [hE, h1, eb, eab]
    simp only
    rw [mergeAll_append F W a b E M h2, mergeAll_world]
    cases mergeAll F W M b with
    | none => rfl
    | some o =>
      cases o with
      | none => simp
      | some N => simp [hw]

/-- **C96, violated**: if the device is full, the status is 0 although the output is cut; the counts it held before are lost. -/
theorem full_disk_violated (F : Flags) (W : World) (profiles : List Input) (profile : Input) (Es : List Maps) (he : Before W Es)
    (Ss : List Samples) (hr : AreRead F W (inputsOf profiles profile) Ss) (hw : W.canWrite = true) :
    ∃ M, IsMerge (Es ++ Ss.map Samples.maps) M ∧ (¬ Room W M → ∃ out, run F W profiles profile = some (0, some out) ∧
      out.length = W.room ∧ out ≠ writeText M []) := by
  obtain ⟨_, M, -, -, h3, h4⟩ := run_merged F W profiles profile Es he Ss hr
  refine ⟨M, h3, fun hn => ⟨(writeText M []).take W.room, by rw [h4, hw]; rfl, ?_, ?_⟩⟩
  · unfold Room at hn
    rw [List.length_take]; omega
  · intro e
    unfold Room at hn
    have := congrArg List.length e
    rw [List.length_take] at this
    omega

/-- **C96, violated**: counts that sum up to 2^64 are written as 0. -/
theorem overflow_violated (F : Flags) (W : World) (profiles : List Input) (profile : Input) (Es : List Maps) (he : Before W Es)
    (Ss : List Samples) (hr : AreRead F W (inputsOf profiles profile) Ss) (hw : W.canWrite = true) (a : Nat)
    (hs : ((Es ++ Ss.map Samples.maps).map fun p => OMap.get0 p.addr a).sum = 2 ^ 64) :
    ∃ M, OMap.find? M.addr a = some 0 ∧ (Room W M → run F W profiles profile = some (0, some (writeText M []))) := by
  obtain ⟨M, h1, h2, -, -⟩ := sample_merger F W profiles profile Es he Ss hr
  refine ⟨M, ?_, h2 hw⟩
  have hex : ∃ p ∈ (Es ++ Ss.map Samples.maps).map Maps.addr, (OMap.find? p a).isSome = true := by
    by_contra hc
    push Not at hc
    have : ((Es ++ Ss.map Samples.maps).map fun p => OMap.get0 p.addr a).sum = 0 := by
      rw [List.sum_eq_zero]
      intro x hx
      obtain ⟨q, hq, rfl⟩ := List.mem_map.1 hx
      have h0 := hc q.addr (List.mem_map.2 ⟨q, hq, rfl⟩)
      unfold OMap.get0
      cases hf : OMap.find? q.addr a with
      | none => rfl
      | some v => rw [hf] at h0; simp at h0
    omega
  rw [h1.addr.count a hex, List.map_map]
  have e : ((Es ++ Ss.map Samples.maps).map ((fun p => OMap.get0 p a) ∘ Maps.addr)).sum = 2 ^ 64 := hs
  rw [e, Nat.mod_self]

/-! ## Examples -/

/-- Two text profiles and a trailing comma, merged into an existing profile. -/
def exW : World := ⟨Elf.exPath, some Elf.exFile, some (writeText exampleMaps []), true, 1000⟩

def exInput : Input := ⟨[97], some (writeText exampleMaps []), none, none⟩

def exInputs : List Input := [exInput, ⟨[], none, none, none⟩, exInput]

theorem ex_fits : exampleMaps.Ok ∧ exampleMaps.Fits := by
  refine ⟨⟨?_, ?_, ?_⟩, ?_, ?_, ?_, ?_, ?_, ?_⟩ <;>
    simp [exampleMaps, OMap.Sorted, FitsPair, FitsAddr, Prod.Lex.lt_iff]

theorem ex_before : Before exW [exampleMaps] := .inr ⟨_, _, rfl, text_profile_roundtrip _ ex_fits.1 ex_fits.2 [], rfl⟩

theorem ex_read (p : Input) : ∃ Ss, AreRead CreateGcov.exFlags exW (inputsOf exInputs p) Ss ∧ Ss.map Samples.maps = [exampleMaps, exampleMaps] := by
  have h : readSample CreateGcov.exFlags (filesOf exW exInput) = some (some ⟨exampleMaps, exampleMaps.totalCountFrom 0, false, []⟩) :=
    (CreateGcov.read_sample CreateGcov.exFlags (filesOf exW exInput)).2.2.2.1 rfl exampleMaps [] ex_fits.1 ex_fits.2 rfl
  exact ⟨[_, _], List.Forall₂.cons h (List.Forall₂.cons h List.Forall₂.nil), rfl⟩

/-- The merge: three times the counts. -/
def exMerged : Maps :=
  ⟨[(toLex (0x10, 0x1f), 21), (toLex (0x10, 0x2f), 3)], [(0x10, 0), (0xabcdef, 36)], [(toLex (0x1f, 0x10), 18)]⟩

theorem ex_run (p : Input) : run CreateGcov.exFlags exW exInputs p = some (0, some (writeText exMerged [])) ∧ exMerged.Fits := by
  constructor
  · have h : readSample CreateGcov.exFlags (filesOf exW exInput) = some (some ⟨exampleMaps, exampleMaps.totalCountFrom 0, false, []⟩) :=
      (CreateGcov.read_sample CreateGcov.exFlags (filesOf exW exInput)).2.2.2.1 rfl exampleMaps [] ex_fits.1 ex_fits.2 rfl
    have e : readExisting exW = some exampleMaps := by
      unfold readExisting
      have : exW.existing = some (writeText exampleMaps []) := rfl
      rw [this]
      simp only
      rw [text_profile_roundtrip _ ex_fits.1 ex_fits.2 []]
      decide +kernel
    have i : inputsOf exInputs p = exInputs := rfl
    unfold run
    rw [e, i]
    simp only
    have m : mergeAll CreateGcov.exFlags exW exampleMaps exInputs = some (some exMerged) := by
      unfold exInputs
      have hn : exInput.name ≠ [] := by simp [exInput]
      simp only [mergeAll, hn, if_false, if_true, h, Option.bind_some]
      decide +kernel
    rw [m]
    have : (writeText exMerged []).take exW.room = writeText exMerged [] := by decide +kernel
    simp only [Option.bind_some, this]
    rfl
  · refine ⟨?_, ?_, ?_, ?_, ?_, ?_⟩ <;> simp [exMerged, FitsPair, FitsAddr]

end Verif.SampleMerger
