import Verif.LlvmSpecial
import Verif.NestedEx
import Verif.ThrottleProps
import Verif.MergerGcov

/-!
# C77: `profile_merger --is_llvm` (profile_merger.cc:113-141, 188-311)

From the profiles LLVM's reader delivers to the profiles given to LLVM's writer (`LlvmProf.lean` says what is assumed of the two).
FS discriminators, the choice of the encoding and its options are not modelled beyond the checks of the flags.
-/
namespace Verif.MergerLlvm
open Verif Verif.SymbolMap Verif.Merger

/-- `--format` (profile_merger.cc:226-245). -/
inductive Format where
  | text | binary | compactbinary | extbinary | other
deriving DecidableEq

/-- The flags (profile_merger.cc:25-95).  `special` is `none` with `--merge_special_syms`; `strip` is the match of
`--strip_symbols_regex` (no name for the empty string); `num / den` is `--sample_threshold_frac`. -/
structure Opts where
  special : Option Special
  num : Nat
  den : Nat
  /-- `--max_inline_callsite_nesting_level` -/
  level : Int
  strip : Name → Bool
  /-- `--inline_instances_at_same_loc_cutoff` -/
  cutoff : Int
  /-- `--max_call_targets` -/
  targets : Int
  format : Format
  symbolList : Bool
  compress : Bool
  md5 : Bool
  partialProfile : Bool
  splitLayout : Bool

/-- What LLVM's reader delivers for a file: the functions, in any order, and the symbol list if there is one. -/
structure File where
  functions : List (Name × FSamples)
  symbols : Option (List Name)

/-- One input (profile_merger.cc:202-224): the map, the names to be skipped (part of `special_syms`) and the symbol list.  A file that cannot be
read is a failed `CHECK`. -/
def readInput (pol : Policy) (o : Opts) (st : (SymMap × List Name) × List Name) : Option File → Option ((SymMap × List Name) × List Name)
  | none => none
  | some x => (x.functions.foldlM (readOne pol o.special) st.1).map fun r =>
    (r, if o.symbolList = true ∧ o.format = .extbinary then st.2 ++ x.symbols.getD [] else st.2)

/-- `verifyProperFlags` (profile_merger.cc:113-141). -/
def verifyFlags (o : Opts) (hasList : Bool) : Bool :=
  if o.format ≠ .extbinary then
    if hasList then true
    else if o.compress then false
    else if o.md5 then false
    else if o.partialProfile then false
    else if o.splitLayout then false
    else true
  else true

/-- `RemoveSymsMatchingRegex` (symbol_map.cc:1490-1497). -/
def stripSyms (strip : Name → Bool) (m : SymMap) : SymMap :=
  m.map fun x => if strip x.1 then (x.1, .mk ⟨0, 0, x.2.data.pos⟩ x.2.calls) else x

/-- The call of `throttleInlineInstancesAtSameLocation` (profile_merger.cc:292-296). -/
def limitCallees (c : Int) (m : SymMap) : SymMap := if c > 0 then throttleMap c m else m

/-- The call of `TrimCallTargets` (profile_merger.cc:299-302; symbol_map.cc:1610-1614). -/
def limitTargets (c : Int) (m : SymMap) : SymMap := if c > 0 then m.map fun x => (x.1, x.2.trim c) else m

/-- How the tool ends. -/
inductive Result where
  /-- a failed `CHECK` or `LOG(FATAL)` -/
  | fatal
  /-- exit code 1 -/
  | error
  /-- the functions and the symbol list -/
  | written (out : OMap Name FSamples) (symbols : List Name)

/-- What is done to the map after the flags have been checked (profile_merger.cc:275-307); the threshold is that of the map as it was read
(profile_merger.cc:225). -/
def finishMap (fuel : Nat) (o : Opts) (m : SymMap) : Option (OMap Name FSamples) :=
  (flattenNested fuel o.level m).bind fun r =>
    writeProfiles (Threshold.calculate o.num o.den (entriesOf m)) (limitTargets o.targets (limitCallees o.cutoff (stripSyms o.strip r.1)))

/-- `profile_merger --is_llvm` (profile_merger.cc:188-311); `fuel` bounds the flattening (`merge_llvm` shows that some number suffices). -/
def mergeLlvm (fuel : Nat) (pol : Policy) (o : Opts) (inputs : List (Option File)) : Result :=
  match inputs.foldlM (readInput pol o) (([], []), []) with
  | none => .fatal
  | some st =>
    if o.format = .other then .error
    else if verifyFlags o (!st.2.isEmpty) = false then .error
    else match finishMap fuel o st.1.1 with
      | none => .fatal
      | some out => .written out st.2

/-! ## Locations stay below 2^48 -/

mutual
/-- All locations satisfy `P`. -/
def Keys (P : Nat → Prop) : Sym → Prop
  | .mk d cs => (∀ y ∈ d.pos, P y.1) ∧ KeysCalls P cs
def KeysCalls (P : Nat → Prop) : List (Callsite × Sym) → Prop
  | [] => True
  | (k, c) :: t => P k.1 ∧ Keys P c ∧ KeysCalls P t
end

theorem keysCalls_iff (P : Nat → Prop) : ∀ cs : List (Callsite × Sym), KeysCalls P cs ↔ ∀ x ∈ cs, P x.1.1 ∧ Keys P x.2
  | [] => by simp [KeysCalls]
  | (k, c) :: t => by simp [KeysCalls, keysCalls_iff P t, and_assoc]

theorem keys_iff (P : Nat → Prop) (s : Sym) : Keys P s ↔ (∀ y ∈ s.data.pos, P y.1) ∧ ∀ x ∈ s.calls, P x.1.1 ∧ Keys P x.2 := by
  obtain ⟨d, cs⟩ := s
  rw [Keys, keysCalls_iff]; rfl

mutual
theorem keys_nodes {P : Nat → Prop} : (s : Sym) → (Keys P s ↔ ∀ x ∈ s.nodes, (∀ k ∈ x.1, P k.1) ∧ ∀ y ∈ x.2.pos, P y.1)
  | .mk d cs => by
    rw [Keys, keysCalls_nodes cs, Sym.nodes]
    simp
theorem keysCalls_nodes {P : Nat → Prop} : (cs : List (Callsite × Sym)) → (KeysCalls P cs ↔ ∀ x ∈ nodesCalls cs, (∀ k ∈ x.1, P k.1) ∧ ∀ y ∈ x.2.pos, P y.1)
  | [] => by simp [KeysCalls, nodesCalls]
  | (k, c) :: t => by
    rw [KeysCalls, keys_nodes c, keysCalls_nodes t, nodesCalls]
    constructor
    · rintro ⟨h1, h2, h3⟩ x hx
      rcases List.mem_append.1 hx with hx | hx
      · obtain ⟨y, hy, rfl⟩ := List.mem_map.1 hx
        refine ⟨fun k' hk' => ?_, (h2 y hy).2⟩
        rcases List.mem_cons.1 hk' with rfl | hk'
        · exact h1
        · exact (h2 y hy).1 k' hk'
      · exact h3 x hx
    · intro h
      have h1 := fun y (hy : y ∈ c.nodes) => h (k :: y.1, y.2) (List.mem_append_left _ (List.mem_map.2 ⟨y, hy, rfl⟩))
      refine ⟨(h1 _ (self_node c)).1 k (by simp), fun x hx => ⟨fun k' hk' => (h1 x hx).1 k' (by simp [hk']), (h1 x hx).2⟩, fun x hx => h x (List.mem_append_right _ hx)⟩
end

/-- All locations of all functions satisfy `P`. -/
def MKeys (P : Nat → Prop) (m : SymMap) : Prop := ∀ x ∈ m, Keys P x.2

theorem keys_new (P : Nat → Prop) : Keys P Sym.new := by
  rw [keys_iff]
  constructor
  · intro y hy; cases hy
  · intro x hx; cases hx

theorem MKeys.find {P : Nat → Prop} {m : SymMap} (h : MKeys P m) {f : Name} {s : Sym} (hf : OMap.find? m f = some s) : Keys P s :=
  h _ (OMap.mem_of_find?_some hf)

theorem MKeys.upsert {P : Nat → Prop} {m : SymMap} (h : MKeys P m) (f : Name) (g : Option Sym → Sym) (hn : Keys P (g none))
    (hs : ∀ s, Keys P s → Keys P (g (some s))) : MKeys P (OMap.upsert f g m) := by
  intro x hx
  rcases mem_upsert' f g m x hx with h1 | rfl | ⟨v, h1, rfl⟩
  · exact h x h1
  · exact hn
  · exact hs v (h _ h1)

theorem MKeys.set {P : Nat → Prop} {m : SymMap} (h : MKeys P m) (f : Name) {s : Sym} (hs : Keys P s) : MKeys P (OMap.set f s m) :=
  h.upsert f _ hs fun _ _ => hs

theorem modify_keys {P : Nat → Prop} {m : PosMap} (h : ∀ y ∈ m, P y.1) {l : Nat} (hl : P l) (g : PInfo → PInfo) : ∀ y ∈ PosMap.modify m l g, P y.1 := by
  intro y hy
  rcases OMap.mem_upsert_keys hy with h1 | h1
  · rw [h1]; exact hl
  · exact h y h1

theorem addAll_keys {P : Nat → Prop} : ∀ (xs : List (Nat × PInfo)) (m : PosMap), (∀ y ∈ m, P y.1) → (∀ y ∈ xs, P y.1) → ∀ y ∈ PosMap.addAll m xs, P y.1
  | [], m, h, _ => h
  | x :: t, m, h, hx => by
    have := addAll_keys t _ (modify_keys h (hx x (by simp)) fun p => p.add x.2) fun y hy => hx y (by simp [hy])
    exact this

theorem modifyAt_keys {P : Nat → Prop} {cs : List (Callsite × Sym)} (h : ∀ x ∈ cs, P x.1.1 ∧ Keys P x.2) {k : Callsite} (hk : P k.1) (g : Option Sym → Sym)
    (hg : ∀ o : Option Sym, (∀ s, o = some s → Keys P s) → Keys P (g o)) : ∀ x ∈ modifyAt cs k g, P x.1.1 ∧ Keys P x.2 := by
  intro x hx
  rcases mem_modifyAt' k g cs x hx with h1 | rfl | ⟨v, h1, rfl⟩
  · exact h x h1
  · exact ⟨hk, hg none fun _ h => by cases h⟩
  · exact ⟨hk, hg _ fun s hs => by cases hs; exact (h _ h1).2⟩

/-! ### Reading -/

theorem addAlong_keys {P : Nat → Prop} (c : Nat) (leaf : Data → Data) (hl : ∀ d : Data, (∀ y ∈ d.pos, P y.1) → ∀ y ∈ (leaf d).pos, P y.1) :
    ∀ (p : List Callsite) (s : Sym), (∀ k ∈ p, P k.1) → Keys P s → Keys P (Sym.addAlong c leaf p s)
  | [], .mk d cs, _, h => by
    rw [keys_iff] at h ⊢
    rw [Sym.addAlong]
    exact ⟨hl _ h.1, h.2⟩
  | k :: p, .mk d cs, hp, h => by
    rw [keys_iff] at h ⊢
    rw [Sym.addAlong]
    refine ⟨h.1, modifyAt_keys h.2 (hp k (by simp)) _ fun o ho => ?_⟩
    refine addAlong_keys c leaf hl p _ (fun k' hk' => hp k' (by simp [hk'])) ?_
    cases o with
    | none => exact keys_new P
    | some s => exact ho s rfl

theorem walk_off (conv : Bool) : ∀ (l : List Frame), ∀ k ∈ walk conv l, ∃ f ∈ l, k.1 = f.off
  | [], k, h => by cases h
  | [f], k, h => by cases h
  | f :: g :: t, k, h => by
    rw [walk] at h
    split at h
    · cases h
    · rcases List.mem_cons.1 h with rfl | h
      · exact ⟨f, by simp, rfl⟩
      · obtain ⟨f', h1, h2⟩ := walk_off conv (g :: t) k h
        exact ⟨f', by simp [List.mem_cons.1 h1], h2⟩

theorem addSourceCount_keys {P : Nat → Prop} {m m' : SymMap} {n : Name} {src : List Frame} {c i d : Nat} {mul : Bool} {ds : DataSource}
    (h : addSourceCount m n src c i d mul ds = some m') (hm : MKeys P m) (hs : ∀ f ∈ src, P f.off) : MKeys P m' := by
  unfold addSourceCount at h
  cases src with
  | nil => cases h; exact hm
  | cons f t =>
    simp only at h
    cases hf : OMap.find? m n with
    | none => rw [hf] at h; cases h
    | some s =>
      rw [hf] at h; injection h with h
      subst h
      refine hm.set n (addAlong_keys _ _ ?_ _ _ ?_ (hm.find hf))
      · intro d' hd
        unfold leafCount
        split
        · exact hd
        · intro y hy
          simp only at hy
          exact modify_keys hd (hs f (by simp)) _ y hy
      · intro k hk
        obtain ⟨g, h1, h2⟩ := walk_off _ _ k hk
        rw [h2]; exact hs g (List.mem_reverse.1 h1)

theorem addTarget_keys {P : Nat → Prop} {pol : Policy} {m : SymMap} {r : SymMap × Bool} {n t : Name} {src : List Frame} {c : Nat} {ds : DataSource}
    (h : addIndirectCallTarget pol m n src t c ds = some r) (hm : MKeys P m) (hs : ∀ f ∈ src, P f.off) : MKeys P r.1 := by
  unfold addIndirectCallTarget at h
  cases src with
  | nil => cases h; exact hm
  | cons f t =>
    simp only at h
    cases hf : OMap.find? m n with
    | none => rw [hf] at h; cases h
    | some s =>
      rw [hf] at h; injection h with h
      subst h
      refine hm.set n (addAlong_keys _ _ ?_ _ _ ?_ (hm.find hf))
      · intro d' hd
        unfold leafTarget
        split
        · exact hd
        · intro y hy
          simp only at hy
          exact modify_keys hd (hs f (by simp)) _ y hy
      · intro k hk
        obtain ⟨g, h1, h2⟩ := walk_off _ _ k hk
        rw [h2]; exact hs g (List.mem_reverse.1 h1)

theorem foldlM_inv {A B : Type} {f : A → B → Option A} (Q : A → Prop) : ∀ (l : List B) (a a' : A), (∀ b ∈ l, ∀ x y, Q x → f x b = some y → Q y) → Q a →
    l.foldlM f a = some a' → Q a'
  | [], a, a', _, h, e => by cases e; exact h
  | b :: l, a, a', hf, h, e => by
    rw [List.foldlM_cons] at e
    change (f a b).bind _ = _ at e
    cases h1 : f a b with
    | none => rw [h1] at e; cases e
    | some x =>
      rw [h1, Option.bind_some] at e
      exact foldlM_inv Q l x a' (fun b hb => hf b (by simp [hb])) (hf b (by simp) a x h h1) e

/-- Below 2^48, as LLVM's line locations are (16 bits for the line, 32 for the discriminator). -/
abbrev Below48 (n : Nat) : Prop := n < 2 ^ 48

theorem readBody_keys {pol : Policy} {top name : Name} {stack : List Frame} {xs : List (Nat × PInfo)} {m m' : SymMap} (hx : ∀ y ∈ xs, Below48 y.1)
    (hs : ∀ f ∈ stack, Below48 f.off) (hm : MKeys Below48 m) (h : readBody pol top stack name m xs = some m') : MKeys Below48 m' := by
  unfold readBody at h
  refine foldlM_inv (MKeys Below48) xs m m' (fun y hy a b ha hab => ?_) hm h
  have hfr : ∀ f ∈ locFrame name y.1 :: stack, Below48 f.off := by
    intro f hf
    rcases List.mem_cons.1 hf with rfl | hf
    · rw [locFrame_off (by have := hx y hy; unfold Below48 at this; omega)]; exact hx y hy
    · exact hs f hf
  cases h1 : addSourceCount a top (locFrame name y.1 :: stack) y.2.count 1 1 false .afdoProfile with
  | none => rw [h1] at hab; cases hab
  | some a1 =>
    rw [h1, Option.bind_some] at hab
    have ha1 := addSourceCount_keys h1 ha hfr
    unfold readTargets at hab
    refine foldlM_inv (MKeys Below48) _ a1 b (fun t _ c d hc hcd => ?_) ha1 hab
    cases h2 : addIndirectCallTarget pol c top (locFrame name y.1 :: stack) t.1 t.2 .afdoProfile with
    | none => rw [h2] at hcd; cases hcd
    | some r =>
      rw [h2] at hcd; cases hcd
      exact addTarget_keys h2 hc hfr

mutual
theorem readFS_keys (pol : Policy) (top name : Name) (stack : List Frame) (m m' : SymMap) (hs : ∀ f ∈ stack, Below48 f.off) (hm : MKeys Below48 m) :
    (s : FSamples) → Keys Below48 s → readFS pol top stack name m s = some m' → MKeys Below48 m'
  | .mk d cs, hk, h => by
    rw [Keys] at hk
    rw [readFS] at h
    cases h1 : readBody pol top stack name m d.pos with
    | none => rw [h1] at h; cases h
    | some m1 =>
      rw [h1, Option.bind_some] at h
      exact readCalls_keys pol top name stack m1 m' hs (readBody_keys hk.1 hs hm h1) cs hk.2 h
theorem readCalls_keys (pol : Policy) (top name : Name) (stack : List Frame) (m m' : SymMap) (hs : ∀ f ∈ stack, Below48 f.off) (hm : MKeys Below48 m) :
    (cs : List (Callsite × FSamples)) → KeysCalls Below48 cs → readCalls pol top stack name m cs = some m' → MKeys Below48 m'
  | [], _, h => by rw [readCalls] at h; cases h; exact hm
  | (k, c) :: t, hk, h => by
    rw [KeysCalls] at hk
    rw [readCalls] at h
    cases h1 : readFS pol top (locFrame name k.1 :: stack) k.2 m c with
    | none => rw [h1] at h; cases h
    | some m1 =>
      rw [h1, Option.bind_some] at h
      refine readCalls_keys pol top name stack m1 m' hs (readFS_keys pol top k.2 _ m m1 ?_ hm c hk.2.1 h1) t hk.2.2 h
      intro f hf
      rcases List.mem_cons.1 hf with rfl | hf
      · rw [locFrame_off (by have := hk.1; unfold Below48 at this; omega)]; exact hk.1
      · exact hs f hf
end

theorem addSymbol_keys {P : Nat → Prop} {m : SymMap} (h : MKeys P m) (f : Name) : MKeys P (addSymbol m f) := by
  unfold addSymbol OMap.emplace
  exact h.upsert f _ (keys_new P) fun _ hs => hs

theorem entryCount_keys {P : Nat → Prop} {m m' : SymMap} {f : Name} {a b : Nat} (h : addSymbolEntryCount m f a b = some m') (hm : MKeys P m) : MKeys P m' := by
  unfold addSymbolEntryCount at h
  cases hf : OMap.find? m f with
  | none => rw [hf] at h; cases h
  | some s =>
    obtain ⟨d, cs⟩ := s
    rw [hf] at h; injection h with h
    subst h
    refine hm.set f ?_
    have := (keys_iff P _).1 (hm.find hf)
    exact (keys_iff P _).2 this

theorem readOne_keys {pol : Policy} {sp : Option Special} {st st' : SymMap × List Name} {x : Name × FSamples} (hx : Keys Below48 x.2) (hm : MKeys Below48 st.1)
    (h : readOne pol sp st x = some st') : MKeys Below48 st'.1 := by
  have hread : ∀ m m' : SymMap, MKeys Below48 m → readTop pol m x.1 x.2 = some m' → MKeys Below48 m' := by
    intro m m' hm h
    unfold readTop at h
    cases h1 : addSymbolEntryCount (addSymbol m x.1) x.1 x.2.data.head 0 with
    | none => rw [h1] at h; cases h
    | some m1 =>
      rw [h1, Option.bind_some] at h
      have hm1 := entryCount_keys h1 (addSymbol_keys hm x.1)
      cases h2 : readFS pol x.1 [] x.1 m1 x.2 with
      | none => rw [h2] at h; cases h
      | some m2 =>
        rw [h2, Option.bind_some] at h
        have hm2 := readFS_keys pol x.1 x.1 [] m1 m2 (fun f hf => by cases hf) hm1 x.2 hx h2
        split at h
        · exact entryCount_keys h hm2
        · cases h; exact hm2
  have hmerge : ∀ r, shouldMerge sp st.1 st.2 x.1 = some r → MKeys Below48 r.1 := by
    intro r hr
    unfold shouldMerge at hr
    cases sp with
    | none => cases hr; exact hm
    | some sp =>
      simp only at hr
      split at hr
      · cases hr; exact hm
      split at hr
      · cases hr; exact hm
      split at hr
      · cases hf : OMap.find? st.1 x.1 with
        | none => rw [hf] at hr; cases hr; exact hm
        | some s =>
          rw [hf] at hr; cases hr
          have := (keys_iff _ _).1 (hm.find hf)
          exact hm.set _ ((keys_iff _ _).2 this)
      split at hr
      · cases hf : OMap.find? st.1 x.1 with
        | some s => rw [hf] at hr; cases hr; exact hm
        | none =>
          rw [hf] at hr
          simp only at hr
          cases h1 : addSymbolEntryCount (addSymbol st.1 x.1) x.1 0 (10 + 1) with
          | none => rw [h1] at hr; cases hr
          | some m1 =>
            rw [h1] at hr; cases hr
            exact entryCount_keys h1 (addSymbol_keys hm x.1)
      · cases hr; exact hm
  unfold readOne at h
  cases h1 : shouldMerge sp st.1 st.2 x.1 with
  | none => rw [h1] at h; cases h
  | some r =>
    rw [h1, Option.bind_some] at h
    have := hmerge r h1
    split at h
    · cases h2 : readTop pol r.1 x.1 x.2 with
      | none => rw [h2] at h; cases h
      | some m' =>
        rw [h2] at h; cases h
        exact hread _ _ this h2
    · cases h; exact this

theorem readProfiles_keys {pol : Policy} {sp : Option Special} {xs : List (Name × FSamples)} {r : SymMap × List Name} (hx : ∀ x ∈ xs, Keys Below48 x.2)
    (h : readProfiles pol sp [] xs = some r) : MKeys Below48 r.1 :=
  foldlM_inv (fun st : SymMap × List Name => MKeys Below48 st.1) xs _ r (fun b hb _ _ ha hab => readOne_keys (hx b hb) ha hab) (fun x hx => by cases hx) h

/-! ### Flattening -/

theorem sub_keys {P : Nat → Prop} : ∀ (q : List Callsite) (s c : Sym), Keys P s → s.sub? q = some c → Keys P c ∧ ∀ k ∈ q, P k.1
  | [], s, c, h, e => by rw [Sym.sub?] at e; cases e; exact ⟨h, fun k hk => by cases hk⟩
  | k :: q, s, c, h, e => by
    rw [Sym.sub?] at e
    cases hl : lookup s.calls k with
    | none => rw [hl] at e; cases e
    | some s' =>
      rw [hl] at e
      have hk := ((keys_iff P s).1 h).2 _ (Merger.mem_of_lookup hl)
      obtain ⟨h1, h2⟩ := sub_keys q s' c hk.2 e
      refine ⟨h1, fun k' hk' => ?_⟩
      rcases List.mem_cons.1 hk' with rfl | hk'
      · exact hk.1
      · exact h2 k' hk'

theorem subAt_keys {P : Nat → Prop} {m : SymMap} (hm : MKeys P m) {g : Name} {q : List Callsite} {c : Sym} (h : subAt m g q = some c) :
    Keys P c ∧ ∀ k ∈ q, P k.1 := by
  unfold subAt at h
  cases hf : OMap.find? m g with
  | none => rw [hf] at h; cases h
  | some s =>
    rw [hf, Option.bind_some] at h
    exact sub_keys q s c (hm.find hf) h

theorem modifyIf_mem {A : Type} (k : Callsite) (f : A → A) : ∀ (l : List (Callsite × A)) (x : Callsite × A), x ∈ modifyIf k f l → ∃ y ∈ l, x.1 = y.1 ∧ (x.2 = y.2 ∨ x.2 = f y.2)
  | [], x, h => by cases h
  | (k', s) :: t, x, h => by
    rw [modifyIf] at h
    split at h
    · rcases List.mem_cons.1 h with rfl | h
      · exact ⟨(k', s), by simp, rfl, Or.inr rfl⟩
      · exact ⟨x, by simp [h], rfl, Or.inl rfl⟩
    · rcases List.mem_cons.1 h with rfl | h
      · exact ⟨(k', s), by simp, rfl, Or.inl rfl⟩
      · obtain ⟨y, h1, h2⟩ := modifyIf_mem k f t x h
        exact ⟨y, by simp [h1], h2⟩

theorem modSub_keys {P : Nat → Prop} (f : Sym → Sym) (hf : ∀ s, Keys P s → Keys P (f s)) : ∀ (q : List Callsite) (s : Sym), Keys P s → Keys P (s.modSub f q)
  | [], s, h => hf s h
  | k :: q, .mk d cs, h => by
    rw [keys_iff] at h ⊢
    rw [Sym.modSub]
    refine ⟨h.1, fun x hx => ?_⟩
    obtain ⟨y, h1, h2, h3⟩ := modifyIf_mem k _ cs x hx
    have := h.2 y h1
    rw [h2]
    rcases h3 with h3 | h3 <;> rw [h3]
    · exact this
    · exact ⟨this.1, modSub_keys f hf q y.2 this.2⟩

theorem modAt_keys {P : Nat → Prop} {m : SymMap} (hm : MKeys P m) (g : Name) (q : List Callsite) (f : Sym → Sym) (hf : ∀ s, Keys P s → Keys P (f s)) :
    MKeys P (modAt m g q f) := by
  unfold modAt
  cases h : OMap.find? m g with
  | none => exact hm
  | some s => exact hm.set g (modSub_keys f hf q s (hm.find h))

theorem onData_keys {P : Nat → Prop} (h : Data → Data) (hh : ∀ d : Data, (∀ y ∈ d.pos, P y.1) → ∀ y ∈ (h d).pos, P y.1) (s : Sym) (hs : Keys P s) : Keys P (onData h s) := by
  obtain ⟨d, cs⟩ := s
  rw [keys_iff] at hs ⊢
  exact ⟨hh d hs.1, hs.2⟩

mutual
theorem estimate_keys {P : Nat → Prop} : (s : Sym) → Keys P s → Keys P s.estimate
  | .mk d cs, h => by
    have h' := h
    rw [Keys] at h'
    rw [Sym.estimate]
    split
    · exact h
    · split
      · rw [Keys]; exact h'
      · next k _ =>
        split
        · rw [Keys]; exact h'
        · rw [Keys]; exact ⟨h'.1, estimateAt_keys k cs h'.2⟩
theorem estimateAt_keys {P : Nat → Prop} (k : Callsite) : (cs : List (Callsite × Sym)) → KeysCalls P cs → KeysCalls P (estimateAt k cs)
  | [], _ => by rw [estimateAt]; trivial
  | (k', c) :: t, h => by
    rw [KeysCalls] at h
    rw [estimateAt]
    split
    · rw [KeysCalls]; exact ⟨h.1, estimate_keys c h.2.1, estimateAt_keys k t h.2.2⟩
    · rw [KeysCalls]; exact ⟨h.1, h.2.1, estimateAt_keys k t h.2.2⟩
end

mutual
theorem merge_keys {P : Nat → Prop} (a : Sym) (ha : Keys P a) : (b : Sym) → Keys P b → Keys P (a.merge b)
  | .mk d cs, h => by
    rw [Keys] at h
    rw [Sym.merge, Keys]
    rw [keys_iff] at ha
    exact ⟨addAll_keys d.pos a.data.pos ha.1 h.1, mergeCalls_keys a.calls ((keysCalls_iff P _).2 ha.2) cs h.2⟩
theorem mergeCalls_keys {P : Nat → Prop} (acc : List (Callsite × Sym)) (ha : KeysCalls P acc) : (cs : List (Callsite × Sym)) → KeysCalls P cs → KeysCalls P (mergeCalls acc cs)
  | [], _ => by rw [mergeCalls]; exact ha
  | (k, c) :: t, h => by
    rw [KeysCalls] at h
    rw [mergeCalls]
    refine mergeCalls_keys _ ?_ t h.2.2
    rw [keysCalls_iff] at ha ⊢
    refine modifyAt_keys ha h.1 _ fun o ho => merge_keys _ ?_ c h.2.1
    cases o with
    | none => exact keys_new P
    | some s => exact ho s rfl
end

theorem flattenOne_keys {P : Nat → Prop} {rec : Name → List Callsite → SymMap → Option (SymMap × Nat)} (hr : ∀ g q m r, MKeys P m → rec g q m = some r → MKeys P r.1)
    {g : Name} {q : List Callsite} {m m' : SymMap} {k : Callsite} (hm : MKeys P m) (h : flattenOne rec g q m k = some m') : MKeys P m' := by
  unfold flattenOne at h
  cases h1 : subAt m g (q ++ [k]) with
  | none => rw [h1] at h; cases h
  | some c =>
    rw [h1, Option.bind_some] at h
    have hk := (subAt_keys hm h1).2 k (by simp)
    have hm1 := modAt_keys hm g q (onData fun d => { d with total := wsub d.total c.data.total }) (onData_keys _ fun d hd => hd)
    generalize modAt m g q (onData fun d => { d with total := wsub d.total c.data.total }) = m1 at h hm1
    cases h2 : rec g (q ++ [k]) m1 with
    | none => rw [h2] at h; cases h
    | some r =>
      rw [h2, Option.bind_some] at h
      have hm2 := modAt_keys (hr _ _ _ _ hm1 h2) g (q ++ [k]) Sym.estimate fun s hs => estimate_keys s hs
      generalize modAt r.1 g (q ++ [k]) Sym.estimate = m2 at h hm2
      cases h3 : subAt m2 g (q ++ [k]) with
      | none => rw [h3] at h; cases h
      | some c2 =>
        rw [h3, Option.map_some] at h
        cases h
        have hc := (subAt_keys hm2 h3).1
        unfold atName
        have hm3 := modAt_keys hm2 g q (onData (flattenInto k c2)) (onData_keys _ fun d hd => by
          intro y hy
          rw [flattenInto_pos] at hy
          exact modify_keys (modify_keys hd hk _) hk _ y hy)
        exact hm3.upsert _ _ (merge_keys _ (keys_new P) _ hc) fun s hs => merge_keys _ hs _ hc

theorem nested_keys {P : Nat → Prop} (mx : Nat) : ∀ (fuel depth : Nat) (g : Name) (q : List Callsite) (m : SymMap) (r : SymMap × Nat), MKeys P m →
    nested mx fuel depth g q m = some r → MKeys P r.1
  | 0, depth, g, q, m, r, _, h => by rw [nested] at h; cases h
  | fuel + 1, depth, g, q, m, r, hm, h => by
    rw [nested] at h
    have ih := fun d => nested_keys (P := P) mx fuel d
    cases h1 : subAt m g q with
    | none => rw [h1] at h; cases h
    | some func =>
      rw [h1, Option.bind_some] at h
      by_cases hd : depth = mx
      · rw [if_pos hd] at h
        cases h2 : (func.calls.map Prod.fst).foldlM (flattenOne (nested mx fuel 1) g q) m with
        | none => rw [h2] at h; cases h
        | some m1 =>
          rw [h2, Option.map_some, Option.bind_some] at h
          have hm1 := foldlM_inv (MKeys P) _ m m1 (fun k _ a b ha hab => flattenOne_keys (ih 1) ha hab) hm h2
          cases h3 : subAt (modAt m1 g q fun s => .mk s.data []) g q with
          | none => rw [h3] at h; cases h
          | some s =>
            rw [h3, Option.map_some] at h
            cases h
            refine modAt_keys hm1 g q _ fun s hs => ?_
            rw [keys_iff] at hs ⊢
            exact ⟨hs.1, fun x hx => by cases hx⟩
      · rw [if_neg hd] at h
        cases h2 : (func.calls.map Prod.fst).foldlM (fun m k => (nested mx fuel (depth + 1) g (q ++ [k]) m).map fun r =>
            modAt r.1 g q (onData fun d => { d with total := (d.total + r.2) % 2 ^ 64 })) m with
        | none => rw [h2] at h; cases h
        | some m1 =>
          rw [h2, Option.bind_some] at h
          have hm1 := foldlM_inv (MKeys P) _ m m1 (fun k _ a b ha hab => by
            cases h4 : nested mx fuel (depth + 1) g (q ++ [k]) a with
            | none => rw [h4] at hab; cases hab
            | some r' =>
              rw [h4, Option.map_some] at hab
              cases hab
              exact modAt_keys (ih _ _ _ _ _ ha h4) g q _ (onData_keys _ fun d hd => hd)) hm h2
          cases h3 : subAt m1 g q with
          | none => rw [h3] at h; cases h
          | some s =>
            rw [h3, Option.map_some] at h
            cases h
            exact hm1

theorem nestedFrom_keys {P : Nat → Prop} (mx rf : Nat) : ∀ (fuel : Nat) (next : Option (Name × Sym)) (m : SymMap) (n : Nat) (r : SymMap × Nat), MKeys P m →
    nestedFrom mx rf fuel next m n = some r → MKeys P r.1
  | fuel, none, m, n, r, hm, h => by cases fuel <;> (rw [nestedFrom] at h; cases h; exact hm)
  | 0, some _, m, n, r, _, h => by rw [nestedFrom] at h; cases h
  | fuel + 1, some x, m, n, r, hm, h => by
    rw [nestedFrom] at h
    cases h1 : nested mx rf 1 x.1 [] m with
    | none => rw [h1] at h; cases h
    | some r' =>
      rw [h1, Option.bind_some] at h
      exact nestedFrom_keys mx rf fuel _ _ _ r (nested_keys mx rf 1 x.1 [] m r' hm h1) h

theorem flattenNested_keys {P : Nat → Prop} {fuel : Nat} {mx : Int} {m : SymMap} {r : SymMap × Nat} (hm : MKeys P m) (h : flattenNested fuel mx m = some r) : MKeys P r.1 := by
  unfold flattenNested at h
  split at h
  · exact nestedFrom_keys _ _ _ _ _ _ r hm h
  · cases h; exact hm

/-! ### The limits -/

mutual
theorem throttle_keys {P : Nat → Prop} (max : Int) : (s : Sym) → Keys P s → Keys P (s.throttle max).1
  | .mk d cs, h => by
    rw [Keys] at h
    rw [Sym.throttle]
    simp only [Keys]
    exact ⟨h.1, (keysCalls_iff P _).2 fun x hx => by
      obtain ⟨y, hy, rfl⟩ := List.mem_map.1 hx
      exact throttleCalls_keys max _ cs h.2 y hy⟩
theorem throttleCalls_keys {P : Nat → Prop} (max : Int) (er : List Callsite) : (cs : List (Callsite × Sym)) → KeysCalls P cs →
    ∀ x ∈ throttleCalls max er cs, P x.1.1 ∧ Keys P x.2.1
  | [], _ => by rw [throttleCalls]; intro x hx; cases hx
  | (k, c) :: t, h => by
    rw [KeysCalls] at h
    rw [throttleCalls]
    split
    · exact throttleCalls_keys max er t h.2.2
    · intro x hx
      rcases List.mem_cons.1 hx with rfl | hx
      · exact ⟨h.1, throttle_keys max c h.2.1⟩
      · exact throttleCalls_keys max er t h.2.2 x hx
end

mutual
theorem trim_keys {P : Nat → Prop} (max : Int) : (s : Sym) → Keys P s → Keys P (s.trim max)
  | .mk d cs, h => by
    rw [Keys] at h
    rw [Sym.trim, Keys]
    refine ⟨fun y hy => ?_, trimCalls_keys max cs h.2⟩
    unfold trimPos at hy
    obtain ⟨z, hz, rfl⟩ := List.mem_map.1 hy
    exact h.1 z hz
theorem trimCalls_keys {P : Nat → Prop} (max : Int) : (cs : List (Callsite × Sym)) → KeysCalls P cs → KeysCalls P (trimCalls max cs)
  | [], _ => by rw [trimCalls]; trivial
  | (k, c) :: t, h => by
    rw [KeysCalls] at h
    rw [trimCalls, KeysCalls]
    exact ⟨h.1, trim_keys max c h.2.1, trimCalls_keys max t h.2.2⟩
end

mutual
theorem trim_WF (max : Int) : (s : Sym) → s.WF → (s.trim max).WF
  | .mk d cs, h => by
    have h' := (Sym.WF_iff _).1 h
    rw [Sym.trim, Sym.WF_iff]
    refine ⟨?_, ?_, ?_, trimCalls_WF max cs h'.2.2.2⟩
    · show OMap.Sorted (trimPos max d.pos)
      unfold trimPos OMap.Sorted
      rw [List.pairwise_map]
      exact h'.1
    · intro y hy
      obtain ⟨z, hz, rfl⟩ := List.mem_map.1 hy
      simp only
      by_cases hx : max < 0
      · unfold trimTargets; rw [if_pos (Or.inl hx)]; exact h'.2.1 z hz
      · obtain ⟨n, rfl⟩ := Int.eq_ofNat_of_zero_le (not_lt.1 hx)
        exact (trimTargets_spec n _ (h'.2.1 z hz)).sorted
    · show ((trimCalls max cs).map Prod.fst).Nodup
      have : ∀ l : List (Callsite × Sym), (trimCalls max l).map Prod.fst = l.map Prod.fst := by
        intro l
        induction l with
        | nil => rfl
        | cons a t ih => obtain ⟨k, c⟩ := a; rw [trimCalls, List.map_cons, List.map_cons, ih]
      rw [this]; exact h'.2.2.1
theorem trimCalls_WF (max : Int) : (cs : List (Callsite × Sym)) → (∀ x ∈ cs, x.2.WF) → ∀ x ∈ trimCalls max cs, x.2.WF
  | [], _ => by rw [trimCalls]; intro x hx; cases hx
  | (k, c) :: t, h => by
    rw [trimCalls]
    intro x hx
    rcases List.mem_cons.1 hx with rfl | hx
    · exact trim_WF max c (h (k, c) (by simp))
    · exact trimCalls_WF max t (fun y hy => h y (by simp [hy])) x hx
end

/-! ## What a successful write says -/

theorem addTargets_some : ∀ (xs : List (Name × Nat)) (acc r : OMap Name Nat), addTargets acc xs = some r → ∀ t ∈ xs, t.2 < 2 ^ 64
  | [], _, _, _ => fun t ht => by cases ht
  | x :: xs, acc, r, h => by
    unfold addTargets at h
    rw [List.foldlM_cons] at h
    change Option.bind _ _ = _ at h
    cases h1 : addChecked (OMap.get0 acc x.1) x.2 with
    | none => rw [h1] at h; cases h
    | some n =>
      rw [h1, Option.map_some, Option.bind_some] at h
      have hx : x.2 < 2 ^ 64 := by
        unfold addChecked at h1
        split at h1
        · omega
        · cases h1
      intro t ht
      rcases List.mem_cons.1 ht with rfl | ht
      · exact hx
      · exact addTargets_some xs _ r h t ht

theorem addBody_some : ∀ (xs acc r : PosMap), addBody acc xs = some r → ∀ y ∈ xs, y.2.count < 2 ^ 64 ∧ ∀ t ∈ y.2.targets, t.2 < 2 ^ 64
  | [], _, _, _ => fun t ht => by cases ht
  | x :: xs, acc, r, h => by
    unfold addBody at h
    rw [List.foldlM_cons] at h
    change Option.bind _ _ = _ at h
    cases h1 : addChecked (PosMap.countAt acc (lineLoc x.1)) x.2.count with
    | none => rw [h1] at h; cases h
    | some n =>
      rw [h1, Option.bind_some] at h
      cases h2 : addTargets ((OMap.find? acc (lineLoc x.1)).getD PInfo.zero).targets x.2.targets with
      | none => rw [h2] at h; cases h
      | some t' =>
        rw [h2, Option.map_some, Option.bind_some] at h
        have hx : x.2.count < 2 ^ 64 := by
          unfold addChecked at h1
          split at h1
          · omega
          · cases h1
        intro y hy
        rcases List.mem_cons.1 hy with rfl | hy
        · exact ⟨hx, addTargets_some _ _ _ h2⟩
        · exact addBody_some xs _ r h y hy

/-- What is checked of an instance. -/
def Checked (d : Data) : Prop := d.total < 2 ^ 64 ∧ ∀ y ∈ d.pos, y.2.count < 2 ^ 64 ∧ ∀ t ∈ y.2.targets, t.2 < 2 ^ 64

theorem addChecked_lt {a b n : Nat} (h : addChecked a b = some n) : b < 2 ^ 64 := by
  unfold addChecked at h
  split at h
  · omega
  · cases h

mutual
theorem writeSym_some (top : Bool) : (s : Sym) → (fs r : FSamples) → (top = true → s.data.total < 2 ^ 64) → SymbolMap.writeSym top fs s = some r → ∀ x ∈ s.nodes, Checked x.2
  | .mk d cs, fs, r, ht, h => by
    rw [SymbolMap.writeSym] at h
    have hd : d.total < 2 ^ 64 := by
      cases top with
      | true => exact ht rfl
      | false =>
        simp only [Bool.false_eq_true, if_false] at h
        cases h1 : addChecked fs.data.total d.total with
        | none => rw [h1] at h; cases h
        | some n => exact addChecked_lt h1
    cases h1 : (if top = true then some fs.data.total else addChecked fs.data.total d.total) with
    | none => rw [h1] at h; cases h
    | some n =>
      rw [h1, Option.bind_some] at h
      cases h2 : addBody fs.data.pos d.pos with
      | none => rw [h2] at h; cases h
      | some b =>
        rw [h2, Option.bind_some] at h
        cases h3 : SymbolMap.writeCalls fs.calls cs with
        | none => rw [h3] at h; cases h
        | some c =>
          rw [Sym.nodes]
          intro x hx
          rcases List.mem_cons.1 hx with rfl | hx
          · exact ⟨hd, addBody_some _ _ _ h2⟩
          · exact writeCalls_some cs _ _ h3 x hx
theorem writeCalls_some : (cs : List (Callsite × Sym)) → (acc r : List (Callsite × FSamples)) → SymbolMap.writeCalls acc cs = some r → ∀ x ∈ nodesCalls cs, Checked x.2
  | [], _, _, _ => by rw [nodesCalls]; intro x hx; cases hx
  | (k, c) :: t, acc, r, h => by
    rw [SymbolMap.writeCalls] at h
    cases h1 : SymbolMap.writeSym false ((lookup acc (lineLoc k.1, k.2)).getD Sym.new) c with
    | none => rw [h1] at h; cases h
    | some fs =>
      rw [h1, Option.bind_some] at h
      rw [nodesCalls]
      intro x hx
      rcases List.mem_append.1 hx with hx | hx
      · obtain ⟨y, hy, rfl⟩ := List.mem_map.1 hx
        exact writeSym_some false c _ _ (fun e => by cases e) h1 y hy
      · exact writeCalls_some t _ _ h x hx
end

theorem writeTop_some {fs r : FSamples} {s : Sym} (h : writeTop fs s = some r) : s.data.head < 2 ^ 64 ∧ ∀ x ∈ s.nodes, Checked x.2 := by
  unfold writeTop at h
  cases h1 : addChecked fs.data.head s.data.head with
  | none => rw [h1] at h; cases h
  | some a =>
    rw [h1, Option.bind_some] at h
    cases h2 : addChecked fs.data.total s.data.total with
    | none => rw [h2] at h; cases h
    | some b =>
      rw [h2, Option.bind_some] at h
      exact ⟨addChecked_lt h1, writeSym_some true s _ _ (fun _ => addChecked_lt h2) h⟩

/-- A function whose counters fit 64 bits: all of them, but for the entry counts of inlined instances, which are not written. -/
def CountersFit (s : Sym) : Prop := s.data.head < 2 ^ 64 ∧ ∀ x ∈ s.nodes, Checked x.2

theorem writable_of {s : Sym} (h : CountersFit s) (hk : Keys Below48 s) : s.Writable := by
  rw [keys_nodes] at hk
  refine ⟨h.1, fun x hx => ⟨⟨(h.2 x hx).1, fun y hy => ((h.2 x hx).2 y hy).1, fun y hy => ((h.2 x hx).2 y hy).2, (hk x hx).2⟩, (hk x hx).1⟩⟩

theorem writeProfiles_some {thr : Nat} {m : SymMap} {out : OMap Name FSamples} (h : writeProfiles thr m = some out) :
    ∀ x ∈ m, x.2.data.total > thr → CountersFit x.2 := by
  intro x hx ht
  have hx' : x ∈ m.filter fun x => Threshold.shouldEmit thr x.2.data.total := List.mem_filter.2 ⟨hx, by simpa [Threshold.shouldEmit] using ht⟩
  unfold writeProfiles at h
  revert h hx'
  generalize (m.filter fun x => Threshold.shouldEmit thr x.2.data.total) = l
  generalize ([] : OMap Name FSamples) = acc
  induction l generalizing acc with
  | nil => intro _ h; cases h
  | cons y t ih =>
    intro h hx'
    rw [List.foldlM_cons] at h
    change Option.bind _ _ = _ at h
    cases h1 : writeTop ((OMap.find? acc y.1).getD Sym.new) y.2 with
    | none => rw [h1] at h; cases h
    | some fs =>
      rw [h1, Option.map_some, Option.bind_some] at h
      rcases List.mem_cons.1 hx' with rfl | hx'
      · exact writeTop_some h1
      · exact ih _ h hx'

/-- What is written: the functions above the threshold, if their counters fit. -/
theorem writeProfiles_iff (thr : Nat) {m : SymMap} (hm : m.WF) (hk : MKeys Below48 m) (out : OMap Name FSamples) :
    writeProfiles thr m = some out ↔ (∀ x ∈ m, x.2.data.total > thr → CountersFit x.2) ∧
      out = (m.filter fun x => Threshold.shouldEmit thr x.2.data.total).map fun x => (x.1, x.2.llvm true) := by
  have key : (∀ x ∈ m, x.2.data.total > thr → CountersFit x.2) →
      writeProfiles thr m = some ((m.filter fun x => Threshold.shouldEmit thr x.2.data.total).map fun x => (x.1, x.2.llvm true)) := by
    intro h
    have hw : SymMap.WF (m.filter fun x => Threshold.shouldEmit thr x.2.data.total) := ⟨List.Pairwise.filter _ hm.1, fun x hx => hm.2 x (List.mem_filter.1 hx).1⟩
    have := writeProfiles_eq thr hw fun x hx => by
      obtain ⟨h1, h2⟩ := List.mem_filter.1 hx
      exact writable_of (h x h1 (by simpa [Threshold.shouldEmit] using h2)) (hk x h1)
    unfold writeProfiles at this ⊢
    rw [List.filter_filter] at this
    simpa using this
  constructor
  · intro h
    have h1 := writeProfiles_some h
    have h2 := key h1
    rw [h] at h2
    exact ⟨h1, Option.some.inj h2⟩
  · rintro ⟨h1, rfl⟩
    exact key h1

/-! ## Reading all inputs -/

/-- All functions of all files, in the order in which they are read. -/
def allFunctions (xs : List File) : List (Name × FSamples) := xs.flatMap File.functions

/-- The merged symbol list: present only if it is asked for and can be written. -/
def allSymbols (o : Opts) (xs : List File) : List Name :=
  if o.symbolList = true ∧ o.format = .extbinary then xs.flatMap fun x => x.symbols.getD [] else []

theorem foldlM_append' {A B : Type} (f : A → B → Option A) (a : A) (l l' : List B) : (l ++ l').foldlM f a = (l.foldlM f a).bind fun x => l'.foldlM f x :=
  List.foldlM_append

theorem readInputs_eq (pol : Policy) (o : Opts) : ∀ (xs : List File) (st : SymMap × List Name) (l : List Name),
    (xs.map some).foldlM (readInput pol o) (st, l) = ((allFunctions xs).foldlM (readOne pol o.special) st).map fun r => (r, l ++ allSymbols o xs)
  | [], st, l => by
    simp [allFunctions, allSymbols]
  | x :: xs, st, l => by
    rw [List.map_cons, List.foldlM_cons]
    change (readInput pol o (st, l) (some x)).bind _ = _
    have hf : allFunctions (x :: xs) = x.functions ++ allFunctions xs := by simp [allFunctions]
    rw [hf, foldlM_append']
    have hx : readInput pol o (st, l) (some x) = (x.functions.foldlM (readOne pol o.special) st).map fun r =>
      (r, if o.symbolList = true ∧ o.format = .extbinary then l ++ x.symbols.getD [] else l) := rfl
    rw [hx]
    cases h : x.functions.foldlM (readOne pol o.special) st with
    | none => rfl
    | some r =>
      simp only [Option.map_some, Option.bind_some]
      rw [readInputs_eq pol o xs]
      congr 1
      funext r'
      unfold allSymbols
      split
      · simp
      · simp

/-- An input that cannot be read stops the merge. -/
theorem merge_llvm_missing (fuel : Nat) (pol : Policy) (o : Opts) (inputs : List (Option File)) (h : none ∈ inputs) : mergeLlvm fuel pol o inputs = .fatal := by
  have : ∀ st, inputs.foldlM (readInput pol o) st = none := by
    induction inputs with
    | nil => cases h
    | cons x t ih =>
      intro st
      rw [List.foldlM_cons]
      change Option.bind _ _ = _
      rcases List.mem_cons.1 h with rfl | h
      · rfl
      · cases readInput pol o st x with
        | none => rfl
        | some st' => exact ih h st'
  unfold mergeLlvm
  rw [this]

/-! ## Specification -/

/-- A file LLVM's reader can deliver and whose line numbers have 16 bits. -/
structure File.Ok (pol : Policy) (x : File) : Prop where
  ok : ∀ y ∈ x.functions, FSOk pol y.2
  lines : ∀ y ∈ x.functions, ∀ n ∈ y.2.nodes, (∀ k ∈ n.1, k.1 < 2 ^ 48) ∧ ∀ z ∈ n.2.pos, z.1 < 2 ^ 48

/-- The flags for which the tool reports an error: an unknown format, or an option of the extensible format used with another one. -/
def BadFlags (o : Opts) : Prop := o.format = .other ∨ (o.format ≠ .extbinary ∧ (o.compress = true ∨ o.md5 = true ∨ o.partialProfile = true ∨ o.splitLayout = true))

instance (o : Opts) : Decidable (BadFlags o) := by unfold BadFlags; infer_instance

/-- The least total of a function that is written, less one: from the totals of the functions read. -/
def cut (o : Opts) (m : SymMap) : Nat := max 10 ((m.map fun x => x.2.data.total).sum * o.num / o.den)

/-- A function with both limits applied (C13, C14). -/
def limited (o : Opts) (s : Sym) : Sym :=
  if o.targets > 0 then Sym.trim o.targets (if o.cutoff > 0 then (s.throttle o.cutoff).1 else s) else if o.cutoff > 0 then (s.throttle o.cutoff).1 else s

/-- What a written function satisfies. -/
structure Within (o : Opts) (f : Name) (s : FSamples) : Prop where
  /-- it does not match `--strip_symbols_regex` -/
  kept : o.strip f = false
  /-- fewer than `--max_inline_callsite_nesting_level` levels of inlining -/
  nesting : 0 < o.level → ∀ p, (s.node? p).isSome = true → (p.length : Int) < o.level
  /-- at most `--inline_instances_at_same_loc_cutoff` inlined callees at each location -/
  callees : 0 < o.cutoff → ∀ p n l, s.at? p = some n → ((n.calls.filter fun c => c.1.1 == l).length : Int) ≤ o.cutoff
  /-- at most `--max_call_targets` targets at each location -/
  targets : 0 < o.targets → ∀ p d, s.node? p = some d → ∀ y ∈ d.pos, (y.2.targets.length : Int) ≤ o.targets

/-! ## Proof -/

theorem find_map_key {V W : Type} (g : Name → V → W) (f : Name) : ∀ m : OMap Name V, OMap.find? (m.map fun x => (x.1, g x.1 x.2)) f = (OMap.find? m f).map (g f)
  | [] => rfl
  | (k, v) :: t => by
    rw [List.map_cons, OMap.find?, OMap.find?, find_map_key g f t]
    by_cases h : f = k
    · subst h; simp
    · simp [h]

/-- The whole of the changes made to a function after flattening. -/
def finished (o : Opts) (f : Name) (s : Sym) : Sym := limited o (if o.strip f then SymbolMap.Sym.mk ⟨0, 0, s.data.pos⟩ s.calls else s)

theorem finished_map (o : Opts) (m : SymMap) : limitTargets o.targets (limitCallees o.cutoff (stripSyms o.strip m)) = m.map fun x => (x.1, finished o x.1 x.2) := by
  have h1 : stripSyms o.strip m = m.map fun x => (x.1, if o.strip x.1 then SymbolMap.Sym.mk ⟨0, 0, x.2.data.pos⟩ x.2.calls else x.2) := by
    unfold stripSyms
    refine List.map_congr_left fun x _ => ?_
    split <;> rfl
  unfold limitTargets limitCallees throttleMap finished limited
  rw [h1]
  by_cases hc : o.cutoff > 0
  · have hc' : ¬ o.cutoff < 0 := by omega
    by_cases ht : o.targets > 0
    · simp [hc, hc', ht, List.map_map, Function.comp_def]
    · simp [hc, hc', ht, List.map_map, Function.comp_def]
  · by_cases ht : o.targets > 0
    · simp [hc, ht, List.map_map, Function.comp_def]
    · simp [hc, ht]

theorem limited_WF (o : Opts) {s : Sym} (h : s.WF) : (limited o s).WF := by
  unfold limited
  split
  · refine trim_WF _ _ ?_
    split
    · exact throttle_WF _ _ h
    · exact h
  · split
    · exact throttle_WF _ _ h
    · exact h

theorem limited_keys (o : Opts) {P : Nat → Prop} {s : Sym} (h : Keys P s) : Keys P (limited o s) := by
  unfold limited
  split
  · refine trim_keys _ _ ?_
    split
    · exact throttle_keys _ _ h
    · exact h
  · split
    · exact throttle_keys _ _ h
    · exact h

theorem trim_total (max : Int) (s : Sym) : (s.trim max).data.total = s.data.total := by
  obtain ⟨d, cs⟩ := s
  rw [Sym.trim]; rfl

theorem limited_total_le (o : Opts) (s : Sym) : (limited o s).data.total ≤ s.data.total := by
  have ht : (s.throttle o.cutoff).1.data.total ≤ s.data.total := by
    have := throttle_total_add s o.cutoff
    omega
  unfold limited
  split
  · rw [trim_total]
    split
    · exact ht
    · exact Nat.le_refl _
  · split
    · exact ht
    · exact Nat.le_refl _

theorem zeroed_WF {s : Sym} (h : s.WF) : (SymbolMap.Sym.mk ⟨0, 0, s.data.pos⟩ s.calls).WF := by
  rw [Sym.WF_iff] at h ⊢
  exact h

theorem finished_WF (o : Opts) (f : Name) {s : Sym} (h : s.WF) : (finished o f s).WF := by
  unfold finished
  refine limited_WF o ?_
  split
  · exact zeroed_WF h
  · exact h

theorem finished_keys (o : Opts) (f : Name) {P : Nat → Prop} {s : Sym} (h : Keys P s) : Keys P (finished o f s) := by
  unfold finished
  refine limited_keys o ?_
  split
  · rw [keys_iff] at h ⊢; exact h
  · exact h

theorem finished_above {o : Opts} {f : Name} {s : Sym} {c : Nat} : (finished o f s).data.total > c ↔ o.strip f = false ∧ (limited o s).data.total > c := by
  unfold finished
  cases h : o.strip f with
  | false => simp
  | true =>
    have := limited_total_le o (SymbolMap.Sym.mk ⟨0, 0, s.data.pos⟩ s.calls)
    simp only [if_true, Bool.true_eq_false, false_and, iff_false, not_lt]
    have h0 : (SymbolMap.Sym.mk ⟨0, 0, s.data.pos⟩ s.calls).data.total = 0 := rfl
    omega

theorem finished_eq {o : Opts} {f : Name} {s : Sym} (h : o.strip f = false) : finished o f s = limited o s := by
  unfold finished; simp [h]

theorem cut_eq (o : Opts) {m : SymMap} (hm : OMap.Sorted m) : Threshold.calculate o.num o.den (entriesOf m) = cut o m := by
  unfold Threshold.calculate cut
  rw [totalCount_nodup m [] 0 (nodup_keys hm) (by simp), Nat.zero_add]
  unfold Threshold.fromTotal Threshold.kMinSamples
  generalize (m.map fun p => p.2.data.total).sum * o.num / o.den = a
  simp only
  split <;> omega

theorem verify_iff (o : Opts) (xs : List File) : (o.format = .other ∨ verifyFlags o (!(allSymbols o xs).isEmpty) = false) ↔ BadFlags o := by
  have hl : o.format ≠ .extbinary → (!(allSymbols o xs).isEmpty) = false := by
    intro h
    unfold allSymbols
    rw [if_neg (fun e => h e.2)]; rfl
  unfold verifyFlags BadFlags
  by_cases h : o.format = .extbinary
  · simp [h]
  · rw [hl h]
    cases h1 : o.compress <;> cases h2 : o.md5 <;> cases h3 : o.partialProfile <;> cases h4 : o.splitLayout <;> simp [h]

/-- C77: merging LLVM profiles.  The functions are read as C57 says, with the names to be skipped carried over from file to file; the inline stacks are
limited as C55 says; the functions written are those that are not to be stripped and whose total, after the limits, is above the threshold, which is computed
from the totals before flattening.  The tool reports an error exactly for bad flags, and it aborts exactly if a counter to be written does not fit 64 bits. -/
theorem merge_llvm (pol : Policy) (o : Opts) (xs : List File) (hx : ∀ x ∈ xs, x.Ok pol) :
    ∃ m mf F, m.WF ∧ (∀ f, SpecialOk o.special f (allFunctions xs) m) ∧ mf.WF ∧
      (o.level ≤ 0 → mf = m) ∧
      (0 < o.level → ∀ g p, (view mf (g, p)).isSome = true → (p.length : Int) < o.level) ∧
      (∀ g, (OMap.find? m g).isSome = true → (OMap.find? mf g).isSome = true) ∧
      (∀ x, (view mf x).isSome = true → ∃ y, (view m y).isSome = true ∧ stack x <:+ stack y) ∧
      (∀ f loc, instSum mf f loc = instSum m f loc) ∧ (∀ f loc, countSum m f loc ≤ countSum mf f loc) ∧ (∀ f loc t, targetSum m f loc t ≤ targetSum mf f loc t) ∧
      ∀ fuel, F ≤ fuel →
        (BadFlags o → mergeLlvm fuel pol o (xs.map some) = .error) ∧
        (¬ BadFlags o → (∃ f s, OMap.find? mf f = some s ∧ o.strip f = false ∧ (limited o s).data.total > cut o m ∧ ¬ CountersFit (limited o s)) →
          mergeLlvm fuel pol o (xs.map some) = .fatal) ∧
        (¬ BadFlags o → (∀ f s, OMap.find? mf f = some s → o.strip f = false → (limited o s).data.total > cut o m → CountersFit (limited o s)) →
          ∃ out, mergeLlvm fuel pol o (xs.map some) = .written out (allSymbols o xs) ∧ OMap.Sorted out ∧
            ∀ f, OMap.find? out f = (OMap.find? mf f).bind fun s => if o.strip f = false ∧ (limited o s).data.total > cut o m then some ((limited o s).llvm true) else none) := by
  have hok : ∀ x ∈ allFunctions xs, FSOk pol x.2 := by
    intro y hy
    obtain ⟨x, h1, h2⟩ := List.mem_flatMap.1 hy
    exact (hx x h1).ok y h2
  have hkeys : ∀ x ∈ allFunctions xs, Keys Below48 x.2 := by
    intro y hy
    obtain ⟨x, h1, h2⟩ := List.mem_flatMap.1 hy
    exact (keys_nodes y.2).2 ((hx x h1).lines y h2)
  obtain ⟨m, skip, hm, hw, -, hsp⟩ := read_special pol o.special (allFunctions xs) hok
  have hmk := readProfiles_keys hkeys hm
  obtain ⟨mf, n, F, hf, hwf, h1, h2, h3, h4, h5, h6, h7⟩ := flatten_nested hw o.level
  have hfk : MKeys Below48 mf := flattenNested_keys hmk (hf F le_rfl)
  refine ⟨m, mf, F, hw, hsp, hwf, fun h => (h1 h).1, h2, h3, h4, h5, h6, h7, fun fuel hfuel => ?_⟩
  have hread : (xs.map some).foldlM (readInput pol o) (([], []), []) = some ((m, skip), allSymbols o xs) := by
    rw [readInputs_eq]
    have : (allFunctions xs).foldlM (readOne pol o.special) ([], []) = some (m, skip) := hm
    rw [this]; rfl
  have hfin : finishMap fuel o m = writeProfiles (cut o m) (mf.map fun x => (x.1, finished o x.1 x.2)) := by
    unfold finishMap
    rw [hf fuel hfuel, Option.bind_some, finished_map, cut_eq o hw.1]
  have hwm : SymMap.WF (mf.map fun x => (x.1, finished o x.1 x.2)) := by
    refine ⟨List.pairwise_map.2 hwf.1, fun x hx => ?_⟩
    obtain ⟨y, hy, rfl⟩ := List.mem_map.1 hx
    exact finished_WF o y.1 (hwf.2 y hy)
  have hkm : MKeys Below48 (mf.map fun x => (x.1, finished o x.1 x.2)) := by
    intro x hx
    obtain ⟨y, hy, rfl⟩ := List.mem_map.1 hx
    exact finished_keys o y.1 (hfk y hy)
  have hgood : (∀ x ∈ mf.map fun x => (x.1, finished o x.1 x.2), x.2.data.total > cut o m → CountersFit x.2) ↔
      ∀ f s, OMap.find? mf f = some s → o.strip f = false → (limited o s).data.total > cut o m → CountersFit (limited o s) := by
    constructor
    · intro h f s hs h8 h9
      have := h (f, finished o f s) (List.mem_map.2 ⟨(f, s), OMap.mem_of_find?_some hs, rfl⟩) (finished_above.2 ⟨h8, h9⟩)
      rw [← finished_eq h8]; exact this
    · intro h x hx ht
      obtain ⟨y, hy, rfl⟩ := List.mem_map.1 hx
      obtain ⟨h8, h9⟩ := finished_above.1 ht
      simp only
      rw [finished_eq h8]
      exact h y.1 y.2 (OMap.find?_some_of_mem hwf.1 hy) h8 h9
  have hmerge : mergeLlvm fuel pol o (xs.map some) = if BadFlags o then Result.error else
      match writeProfiles (cut o m) (mf.map fun x => (x.1, finished o x.1 x.2)) with
      | none => Result.fatal
      | some out => Result.written out (allSymbols o xs) := by
    unfold mergeLlvm
    rw [hread]
    simp only
    rw [hfin]
    by_cases hb : BadFlags o
    · rw [if_pos hb]
      rcases (verify_iff o xs).2 hb with h | h
      · rw [if_pos h]
      · by_cases h' : o.format = .other
        · rw [if_pos h']
        · rw [if_neg h', if_pos h]
    · rw [if_neg hb]
      have := mt (verify_iff o xs).1 hb
      rw [not_or] at this
      rw [if_neg this.1, if_neg this.2]
  refine ⟨fun h => by rw [hmerge, if_pos h], fun h hbad => ?_, fun h hall => ?_⟩
  · rw [hmerge, if_neg h]
    cases hwp : writeProfiles (cut o m) (mf.map fun x => (x.1, finished o x.1 x.2)) with
    | none => rfl
    | some out =>
      obtain ⟨f, s, h8, h9, h10, h11⟩ := hbad
      exact absurd (hgood.1 ((writeProfiles_iff _ hwm hkm out).1 hwp).1 f s h8 h9 h10) h11
  · have hwp := (writeProfiles_iff (cut o m) hwm hkm _).2 ⟨hgood.2 hall, rfl⟩
    rw [hmerge, if_neg h, hwp]
    refine ⟨_, rfl, List.pairwise_map.2 (List.Pairwise.filter _ hwm.1), fun f => ?_⟩
    rw [find_map_snd (fun s : Sym => s.llvm true) f, find_filter hwm.1 (fun s : Sym => Threshold.shouldEmit (cut o m) s.data.total) f, find_map_key]
    cases OMap.find? mf f with
    | none => rfl
    | some s =>
      rw [Option.map_some, Option.bind_some]
      by_cases hc : o.strip f = false ∧ (limited o s).data.total > cut o m
      · rw [if_pos hc, Option.filter_some, if_pos (by simpa [Threshold.shouldEmit] using finished_above.2 hc), finished_eq hc.1]
        rfl
      · rw [if_neg hc, Option.filter_some, if_neg (by
          intro h'
          exact hc (finished_above.1 (by simpa [Threshold.shouldEmit] using h')))]
        rfl

/-! ### The limits hold in the output -/

theorem trim_at (max : Int) : ∀ (p : List Callsite) (s : Sym), (s.trim max).at? p = (s.at? p).map (Sym.trim max)
  | [], s => rfl
  | k :: p, .mk d cs => by
    rw [Sym.trim]
    simp only [Sym.at?, Sym.calls, lookup_trimCalls]
    cases lookup cs k with
    | none => rfl
    | some c => exact trim_at max p c

theorem llvm_at : ∀ (p : List Callsite) (top : Bool) (s : Sym), ∃ b, (s.llvm top).at? p = (s.at? p).map (Sym.llvm b)
  | [], top, s => ⟨top, rfl⟩
  | k :: p, top, .mk d cs => by
    rw [Sym.llvm]
    simp only [Sym.at?, Sym.calls, llvmCalls_lookup]
    cases lookup cs k with
    | none => exact ⟨false, rfl⟩
    | some c => exact llvm_at p false c

theorem trim_calls_keys (max : Int) (s : Sym) : (s.trim max).calls.map Prod.fst = s.calls.map Prod.fst := by
  obtain ⟨d, cs⟩ := s
  rw [Sym.trim]
  show (trimCalls max cs).map Prod.fst = cs.map Prod.fst
  induction cs with
  | nil => rfl
  | cons a t ih => obtain ⟨k, c⟩ := a; rw [trimCalls, List.map_cons, List.map_cons, ih]

theorem llvm_calls_keys (top : Bool) (s : Sym) : (s.llvm top).calls.map Prod.fst = s.calls.map Prod.fst := by
  obtain ⟨d, cs⟩ := s
  rw [Sym.llvm]
  exact llvmCalls_keys cs

theorem atLoc_keys {A B : Type} {a : List (Callsite × A)} {b : List (Callsite × B)} (h : a.map Prod.fst = b.map Prod.fst) (l : Nat) :
    (a.filter fun c => c.1.1 == l).length = (b.filter fun c => c.1.1 == l).length := by
  have key : ∀ {C : Type} (x : List (Callsite × C)), (x.filter fun c => c.1.1 == l).length = ((x.map Prod.fst).filter fun k => k.1 == l).length := by
    intro C x
    rw [List.filter_map, List.length_map]
    rfl
  rw [key, key, h]

theorem node_at' (s : Sym) (p : List Callsite) : s.node? p = (s.at? p).map Sym.data := by
  induction p generalizing s with
  | nil => rfl
  | cons k p ih =>
    simp only [Sym.node?, Sym.at?]
    cases lookup s.calls k with
    | none => rfl
    | some c => exact ih c

theorem throttle_within {s : Sym} (h : s.WF) {c : Int} (hc : c > 0) {p : List Callsite} {n : Sym} (hn : (s.throttle c).1.at? p = some n) :
    (s.at? p).isSome = true ∧ ∀ l, ((n.calls.filter fun x => x.1.1 == l).length : Int) ≤ c := by
  obtain ⟨k, rfl⟩ := Int.eq_ofNat_of_zero_le (le_of_lt hc)
  obtain ⟨n0, h1, h2, -⟩ := throttle_spec s h k p n hn
  refine ⟨by rw [h1]; rfl, fun l => ?_⟩
  have := h2.limit l
  omega

theorem throttled_sub {s : Sym} (h : s.WF) (o : Opts) {p : List Callsite} (hp : ((if o.cutoff > 0 then (s.throttle o.cutoff).1 else s).node? p).isSome = true) :
    (s.node? p).isSome = true := by
  by_cases hc : o.cutoff > 0
  · rw [if_pos hc, node_at', Option.isSome_map] at hp
    obtain ⟨n, hn⟩ := Option.isSome_iff_exists.1 hp
    rw [node_at', Option.isSome_map]
    exact (throttle_within h hc hn).1
  · rw [if_neg hc] at hp; exact hp

theorem trimmed_targets {c : Int} (hc : c > 0) (t : OMap Name Nat) : ((trimTargets c t).length : Int) ≤ c := by
  unfold trimTargets
  by_cases h : c < 0 ∨ (t.length : Int) ≤ c
  · rw [if_pos h]; omega
  · rw [if_neg h]
    have hl : ∀ (xs : List (Name × Nat)) (m : OMap Name Nat), (xs.foldl (fun m x => OMap.upsert x.1 (fun o => o.getD x.2) m) m).length ≤ m.length + xs.length := by
      intro xs
      induction xs with
      | nil => intro m; simp
      | cons x t ih =>
        intro m
        have h1 := ih (OMap.upsert x.1 (fun o => o.getD x.2) m)
        have h2 := upsert_length x.1 (fun o : Option Nat => o.getD x.2) m
        rw [List.foldl_cons, List.length_cons]
        omega
    have := hl ((isort targetLe t).take c.toNat) []
    have h3 := List.length_take_le c.toNat (isort targetLe t)
    unfold insertAll
    simp only [List.length_nil] at this
    omega

theorem limited_within (o : Opts) {f : Name} {s : Sym} (h : s.WF) (hk : o.strip f = false) (hl : 0 < o.level → ∀ p, (s.node? p).isSome = true → (p.length : Int) < o.level) :
    Within o f ((limited o s).llvm true) := by
  refine ⟨hk, fun h0 p hp => ?_, fun h0 p n l hn => ?_, fun h0 p d hd y hy => ?_⟩
  · rw [llvm_node, Option.isSome_map] at hp
    refine hl h0 p (throttled_sub h o ?_)
    unfold limited at hp
    split at hp
    · rw [trim_node?, Option.isSome_map] at hp; exact hp
    · exact hp
  · obtain ⟨b, hb⟩ := llvm_at p true (limited o s)
    rw [hb] at hn
    cases h1 : (limited o s).at? p with
    | none => rw [h1] at hn; cases hn
    | some n1 =>
      rw [h1] at hn; cases hn
      rw [atLoc_keys (llvm_calls_keys b n1) l]
      unfold limited at h1
      rw [if_pos h0] at h1
      split at h1
      · rw [trim_at] at h1
        cases h2 : (s.throttle o.cutoff).1.at? p with
        | none => rw [h2] at h1; cases h1
        | some n2 =>
          rw [h2] at h1; cases h1
          rw [atLoc_keys (trim_calls_keys o.targets n2) l]
          exact (throttle_within h h0 h2).2 l
      · exact (throttle_within h h0 h1).2 l
  · rw [llvm_node] at hd
    unfold limited at hd
    rw [if_pos h0, trim_node?] at hd
    cases h1 : (if o.cutoff > 0 then (s.throttle o.cutoff).1 else s).node? p with
    | none => rw [h1] at hd; cases hd
    | some d1 =>
      rw [h1] at hd; cases hd
      obtain ⟨z, hz, rfl⟩ := List.mem_map.1 hy
      unfold trimPos at hz
      obtain ⟨w, hw, rfl⟩ := List.mem_map.1 hz
      exact trimmed_targets h0 _

/-- C77: whenever a profile is written, every function in it is within all limits and has a total above 10. -/
theorem merge_llvm_within (pol : Policy) (o : Opts) (xs : List File) (hx : ∀ x ∈ xs, x.Ok pol) :
    ∃ F, ∀ fuel, F ≤ fuel → ∀ out syms, mergeLlvm fuel pol o (xs.map some) = .written out syms → ∀ f s, OMap.find? out f = some s → Within o f s ∧ s.data.total > 10 := by
  obtain ⟨m, mf, F, hw, -, hwf, -, h2, -, -, -, -, -, h⟩ := merge_llvm pol o xs hx
  refine ⟨F, fun fuel hf out syms hm f s hs => ?_⟩
  obtain ⟨a, b, c⟩ := h fuel hf
  by_cases hb : BadFlags o
  · rw [a hb] at hm; cases hm
  · by_cases hall : ∀ f s, OMap.find? mf f = some s → o.strip f = false → (limited o s).data.total > cut o m → CountersFit (limited o s)
    · obtain ⟨out', e, -, ho⟩ := c hb hall
      rw [hm] at e
      injection e with e1 e2
      subst e1
      rw [ho f] at hs
      cases hmf : OMap.find? mf f with
      | none => rw [hmf] at hs; cases hs
      | some t =>
        rw [hmf, Option.bind_some] at hs
        split at hs
        · next hc =>
          cases hs
          refine ⟨limited_within o (hwf.2 _ (OMap.mem_of_find?_some hmf)) hc.1 fun h0 p hp => h2 h0 f p ?_, ?_⟩
          · unfold view; rw [hmf]; exact hp
          · have ht : ((limited o t).llvm true).data.total = (limited o t).data.total := by
              generalize limited o t = u
              obtain ⟨d, cs⟩ := u
              rw [Sym.llvm]; rfl
            rw [ht]
            have := hc.2
            unfold cut at this
            omega
        · cases hs
    · push Not at hall
      rw [b hb (by obtain ⟨f, s, h1, h2, h3, h4⟩ := hall; exact ⟨f, s, h1, h2, h3, h4⟩)] at hm
      cases hm

/-! ### Without limits: the sums -/

/-- No special symbols and no limits, as by default. -/
structure NoLimits (o : Opts) : Prop where
  special : o.special = none
  level : o.level ≤ 0
  strip : ∀ f, o.strip f = false
  cutoff : o.cutoff ≤ 0
  targets : o.targets ≤ 0

/-- The counts of each function, added over all files, fit 64 bits. -/
structure SumsFit (xs : List File) : Prop where
  total : ∀ f, ((entries f (allFunctions xs)).map fun s => s.data.total + s.bodyBelow []).sum < 2 ^ 64
  head : ∀ f, ((entries f (allFunctions xs)).map fun s => s.data.head).sum < 2 ^ 64
  target : ∀ x ∈ xs, ∀ y ∈ x.functions, ∀ p loc t n, y.2.target? p loc t = some n → n < 2 ^ 64

theorem sum_filter_le' {A : Type} (f : A → Nat) (p : A → Bool) (l : List A) : ((l.filter p).map f).sum ≤ (l.map f).sum := Merger.sum_filter_le f p l

theorem bodyBelow_le (s : Sym) (p : List Callsite) : s.bodyBelow p ≤ s.bodyBelow [] := by
  unfold Sym.bodyBelow
  have : (s.nodes.filter fun x => ([] : List Callsite).isPrefixOf x.1) = s.nodes := by
    rw [List.filter_eq_self]; intro x _; rfl
  rw [this]
  exact sum_filter_le' _ _ _

theorem count_le_body (s : Sym) (hs : s.WF) (p : List Callsite) (loc : Nat) : s.countAt p loc ≤ s.bodyBelow [] := by
  unfold Sym.countAt
  cases h : s.node? p with
  | none => simp [Data.zero, PosMap.countAt, OMap.find?, PInfo.zero]
  | some d =>
    have h1 : d.body ≤ s.bodyBelow [] := by
      refine le_trans ?_ (bodyBelow_le s p)
      unfold Sym.bodyBelow
      refine List.single_le_sum (fun _ _ => Nat.zero_le _) _ (List.mem_map.2 ⟨(p, d), List.mem_filter.2 ⟨(mem_nodes p d s hs).2 h, by simp⟩, rfl⟩)
    refine le_trans ?_ h1
    unfold PosMap.countAt Data.body
    simp only [Option.getD_some]
    cases hf : OMap.find? d.pos loc with
    | none => simp [PInfo.zero]
    | some i => exact List.single_le_sum (fun _ _ => Nat.zero_le _) _ (List.mem_map.2 ⟨(loc, i), OMap.mem_of_find?_some hf, rfl⟩)

theorem sum_le_map {A : Type} (f g : A → Nat) (l : List A) (h : ∀ a ∈ l, f a ≤ g a) : (l.map f).sum ≤ (l.map g).sum := by
  induction l with
  | nil => simp
  | cons a t ih =>
    have := h a (by simp)
    have := ih fun b hb => h b (by simp [hb])
    simp only [List.map_cons, List.sum_cons]
    omega

theorem total0_le (l : List FSamples) : ∀ n : Nat, l.foldl (fun old s => if old + s.bodyBelow [] = 0 then s.data.total else old + s.bodyBelow []) n ≤
    n + (l.map fun s => s.data.total + s.bodyBelow []).sum := by
  induction l with
  | nil => intro n; simp
  | cons s t ih =>
    intro n
    rw [List.foldl_cons, List.map_cons, List.sum_cons]
    refine le_trans (ih _) ?_
    split <;> omega

theorem target_lt (l : List FSamples) (p : List Callsite) (loc : Nat) (t : Name) (h : ∀ s ∈ l, ∀ n, s.target? p loc t = some n → n < 2 ^ 64) :
    ∀ n : Nat, n < 2 ^ 64 → l.foldl (fun old s => (s.target? p loc t).getD old) n < 2 ^ 64 := by
  induction l with
  | nil => intro n hn; exact hn
  | cons s u ih =>
    intro n hn
    rw [List.foldl_cons]
    refine ih (fun x hx => h x (by simp [hx])) _ ?_
    cases hs : s.target? p loc t with
    | none => exact hn
    | some k => exact h s (by simp) k hs

theorem sums_fit {pol : Policy} {xs : List File} (hx : ∀ x ∈ xs, x.Ok pol) (hs : SumsFit xs) {m : SymMap} (hm : m.WF) (hr : ∀ f, ReadAll f (allFunctions xs) [] m)
    {f : Name} {s : Sym} (hf : OMap.find? m f = some s) : CountersFit s := by
  have hg : m.get f = s := by unfold SymMap.get; rw [hf]; rfl
  have hw : s.WF := hm.2 _ (OMap.mem_of_find?_some hf)
  have R := hr f
  have h0 : SymMap.get ([] : SymMap) f = Sym.new := rfl
  have hnew : ∀ p, Sym.new.node? p = if p = [] then some Data.zero else none := by
    intro p; cases p <;> rfl
  have hnd : ∀ p, (Sym.new.node? p).getD Data.zero = Data.zero := by
    intro p; rw [hnew]; split <;> rfl
  have hent : ∀ e ∈ entries f (allFunctions xs), e.WF ∧ ∀ p loc t n, e.target? p loc t = some n → n < 2 ^ 64 := by
    intro e he
    obtain ⟨y, hy, rfl⟩ := List.mem_map.1 he
    obtain ⟨x, h1, h2⟩ := List.mem_flatMap.1 (List.mem_filter.1 hy).1
    exact ⟨((hx x h1).ok y h2).wf, hs.target x h1 y h2⟩
  have hbelow : ∀ g : FSamples → Nat, (∀ e ∈ entries f (allFunctions xs), g e ≤ e.bodyBelow []) → ((entries f (allFunctions xs)).map g).sum < 2 ^ 64 := by
    intro g hg'
    refine lt_of_le_of_lt (sum_le_map _ _ _ fun e he => ?_) (hs.total f)
    have := hg' e he
    omega
  refine ⟨?_, fun x hx' => ?_⟩
  · have h1 := R.head []
    rw [hg, h0] at h1
    unfold Sym.headAt at h1
    rw [hnd] at h1
    simp only [Sym.node?, Option.getD_some, if_true] at h1
    rw [h1]
    have := hs.head f
    simp only [Data.zero]
    omega
  · obtain ⟨p, d⟩ := x
    have hn := (mem_nodes p d s hw).1 hx'
    have hget : ((m.get f).node? p).getD Data.zero = d := by rw [hg, hn]; rfl
    refine ⟨?_, fun y hy => ⟨?_, fun t ht => ?_⟩⟩
    · by_cases hp : p = []
      · subst hp
        have h1 := R.total0
        unfold Sym.totalAt at h1
        rw [hget, h0, hnd] at h1
        simp only
        rw [h1]
        refine lt_of_le_of_lt (total0_le _ _) ?_
        have := hs.total f
        simp only [Data.zero]
        omega
      · have h1 := R.total p hp
        unfold Sym.totalAt at h1
        rw [hget, h0, hnd] at h1
        simp only
        rw [h1]
        have := hbelow (fun e => e.bodyBelow p) fun e _ => bodyBelow_le e p
        simp only [Data.zero]
        omega
    · have hyf := OMap.find?_some_of_mem (hw.node p).1 (by rw [hn]; exact hy : (y.1, y.2) ∈ ((s.node? p).getD Data.zero).pos)
      rw [hn, Option.getD_some] at hyf
      have h1 := R.count p y.1
      unfold Sym.countAt at h1
      rw [hget, h0, hnd] at h1
      have h2 : d.pos.countAt y.1 = y.2.count := by unfold PosMap.countAt; rw [hyf]; rfl
      rw [h2] at h1
      rw [h1]
      have := hbelow (fun e => e.countAt p y.1) fun e he => count_le_body e (hent e he).1 p y.1
      unfold Sym.countAt at this
      have hz : PosMap.countAt Data.zero.pos y.1 = 0 := rfl
      rw [hz]
      omega
    · have hwn := hw.node p
      rw [hn, Option.getD_some] at hwn
      have hyf : OMap.find? d.pos y.1 = some y.2 := OMap.find?_some_of_mem hwn.1 hy
      have htf : OMap.find? y.2.targets t.1 = some t.2 := OMap.find?_some_of_mem (hwn.2 y hy) ht
      have h1 := R.target p y.1 t.1
      unfold Sym.targetAt at h1
      rw [hget, h0, hnd] at h1
      have h2 : d.pos.targetAt y.1 t.1 = t.2 := by unfold PosMap.targetAt OMap.get0; rw [hyf]; simp [htf]
      rw [h2] at h1
      rw [h1]
      exact target_lt _ p y.1 t.1 (fun e he n hne => (hent e he).2 p y.1 t.1 n hne) _ (by simp [PosMap.targetAt, Data.zero, OMap.find?, OMap.get0, PInfo.zero])

/-- C77: without limits, and if the sums fit 64 bits, the profile is written, and it has exactly the functions whose total, added over all files, is above 10 and above
the given fraction of the totals of all functions; of each of them it has the totals, the entry count and the counts of all locations of all inline instances
added over all files, and the call targets of the last file that has the location (`ReadAll`). -/
theorem merge_llvm_sums (pol : Policy) (o : Opts) (xs : List File) (hx : ∀ x ∈ xs, x.Ok pol) (ho : NoLimits o) (hb : ¬ BadFlags o) (hs : SumsFit xs) :
    ∃ m out F, m.WF ∧ (∀ f, ReadAll f (allFunctions xs) [] m) ∧ OMap.Sorted out ∧
      (∀ f, OMap.find? out f = ((OMap.find? m f).filter fun s => decide (s.data.total > max 10 ((m.map fun x => x.2.data.total).sum * o.num / o.den))).map fun s => s.llvm true) ∧
      ∀ fuel, F ≤ fuel → mergeLlvm fuel pol o (xs.map some) = .written out (allSymbols o xs) := by
  obtain ⟨m, mf, F, hw, hsp, hwf, hlev, -, -, -, -, -, -, h⟩ := merge_llvm pol o xs hx
  have hmf := hlev ho.level
  subst hmf
  have hlim : ∀ s, limited o s = s := fun s => by
    unfold limited
    rw [if_neg (by have := ho.targets; omega), if_neg (by have := ho.cutoff; omega)]
  have hr : ∀ f, ReadAll f (allFunctions xs) [] mf := fun f => by
    have := hsp f
    rw [ho.special] at this
    exact this
  obtain ⟨out, e, hso, hout⟩ := (h F le_rfl).2.2 hb fun f s hf _ _ => by rw [hlim]; exact sums_fit hx hs hw hr hf
  refine ⟨mf, out, F, hw, hr, hso, fun f => ?_, fun fuel hf => ?_⟩
  · rw [hout f]
    cases OMap.find? mf f with
    | none => rfl
    | some s =>
      rw [Option.bind_some, hlim, Option.filter_some]
      unfold cut
      by_cases hc : s.data.total > max 10 ((mf.map fun x => x.2.data.total).sum * o.num / o.den)
      · rw [if_pos ⟨ho.strip f, hc⟩, if_pos (by simpa using hc)]; rfl
      · rw [if_neg (fun h => hc h.2), if_neg (by simpa using hc)]; rfl
  · obtain ⟨out', e', hso', hout'⟩ := (h fuel hf).2.2 hb fun f s hf _ _ => by rw [hlim]; exact sums_fit hx hs hw hr hf
    have : out' = out := OMap.ext hso' hso fun f => by rw [hout f, hout' f]
    rw [e', this]

/-! ## Examples -/

/-- The default flags with a text output. -/
def plainOpts : Opts := ⟨none, 0, 1, 0, fun _ => false, -1, 0, .text, false, false, false, false, false⟩

/-- A file with the profiles of `llvmEx`, and a symbol list. -/
def exFile : File := ⟨llvmEx.map fun x => (x.1, x.2.llvm true), some [[102], [110]]⟩

theorem exFile_ok : exFile.Ok .all := by
  obtain ⟨h1, h2, h3, -⟩ := llvmEx_ok
  constructor
  · intro y hy
    obtain ⟨z, hz, rfl⟩ := List.mem_map.1 hy
    exact llvm_ok true (h1.2 z hz) (h2 z hz) (h3 z hz)
  · intro y hy n hn
    obtain ⟨z, hz, rfl⟩ := List.mem_map.1 hy
    rw [llvm_nodes] at hn
    obtain ⟨w, hw, rfl⟩ := List.mem_map.1 hn
    have := (h2 z hz).2 w hw
    refine ⟨this.2, fun u hu => ?_⟩
    obtain ⟨v, hv, rfl⟩ := List.mem_map.1 hu
    exact this.1.loc v hv

theorem exFile_entries (f : Name) : entries f (allFunctions [exFile, exFile]) =
    if f = [102] then [((llvmEx.get [102]).llvm true), ((llvmEx.get [102]).llvm true)] else if f = [103] then [((llvmEx.get [103]).llvm true), ((llvmEx.get [103]).llvm true)] else [] := by
  have h : allFunctions [exFile, exFile] = [([102], (llvmEx.get [102]).llvm true), ([103], (llvmEx.get [103]).llvm true), ([102], (llvmEx.get [102]).llvm true), ([103], (llvmEx.get [103]).llvm true)] := rfl
  rw [h]
  simp only [entries_cons]
  by_cases h1 : f = [102]
  · subst h1; rfl
  · by_cases h2 : f = [103]
    · subst h2; rfl
    · rw [if_neg (Ne.symm h1), if_neg (Ne.symm h2), if_neg (Ne.symm h1), if_neg (Ne.symm h2), if_neg h1, if_neg h2]
      rfl

/-- The hypotheses of `merge_llvm_sums` are met by two copies of a file. -/
theorem exMerge_ok : (∀ x ∈ [exFile, exFile], x.Ok .all) ∧ NoLimits plainOpts ∧ ¬ BadFlags plainOpts ∧ SumsFit [exFile, exFile] := by
  refine ⟨fun x hx => ?_, ⟨rfl, by decide, fun _ => rfl, by decide, by decide⟩, by decide, ⟨fun f => ?_, fun f => ?_, ?_⟩⟩
  · have : x = exFile := by simpa using hx
    subst this; exact exFile_ok
  · rw [exFile_entries]; split
    · decide +kernel
    · split
      · decide +kernel
      · simp
  · rw [exFile_entries]; split
    · decide +kernel
    · split
      · decide +kernel
      · simp
  · intro x hx y hy p loc t n hn
    have : x = exFile := by simpa using hx
    subst this
    obtain ⟨z, hz, rfl⟩ := List.mem_map.1 hy
    have hb := (llvmEx_ok.2.1 z hz).2
    unfold Sym.target? at hn
    rw [llvm_node] at hn
    cases h1 : z.2.node? p with
    | none => simp [h1] at hn
    | some d =>
      rw [h1, Option.map_some, Option.bind_some] at hn
      unfold Data.llvm at hn
      rw [find_map_pos (fun i => ⟨i.count, 0, i.targets⟩)] at hn
      cases h2 : OMap.find? d.pos loc with
      | none => rw [h2] at hn; cases hn
      | some i =>
        rw [h2, Option.map_some, Option.bind_some] at hn
        exact (hb _ ((mem_nodes p d z.2 (llvmEx_ok.1.2 z hz)).2 h1)).1.target _ (OMap.mem_of_find?_some h2) _ (OMap.mem_of_find?_some hn)

/-- The functions of a result: name, total and entry count, and the instances as in `showNested`. -/
def Result.show : Result → Option (List (List UInt8 × List (List Nat)))
  | .written out _ => some (showNested out)
  | _ => none

/-- The two copies are added up; the second function is not above the threshold. -/
theorem exMerge_result : (mergeLlvm 5 .all plainOpts [some exFile, some exFile]).show = some
    [([102], [[], [24, 14], [1 * 2 ^ 32, 10, 3 * 2 ^ 32 + 1, 8], [2 * 2 ^ 32], [6, 0], [1 * 2 ^ 32, 6]])] := by decide +kernel

/-- With all limits. -/
theorem exMerge_limits : (mergeLlvm 5 .all { plainOpts with level := 1, strip := fun f => f == [103], cutoff := 1, targets := 1 } [some exFile, some exFile]).show = some
    [([102], [[], [24, 14], [1 * 2 ^ 32, 10, 2 * 2 ^ 32, 6, 3 * 2 ^ 32 + 1, 8]])] := by decide +kernel

/-- Options of the extensible format are errors with any other. -/
theorem exMerge_error : mergeLlvm 5 .all { plainOpts with md5 := true } [some exFile] = .error := by rfl

/-- `f` with `h` inlined into it. -/
def soleFile : File := ⟨[([102], .mk ⟨40, 1, [(1 * 2 ^ 32, ⟨25, 0, []⟩)]⟩ [((2 * 2 ^ 32, [104]), .mk ⟨15, 0, [(1 * 2 ^ 32, ⟨10, 0, []⟩), (2 * 2 ^ 32, ⟨5, 0, []⟩)]⟩ [])])], none⟩

/-- A function to be kept only if it is in one profile, which is in two, is removed by setting its total to 0 (symbol_map.cc:1478-1485), but its inlined callees stay.  If
the nesting level is limited too, the total of the callee is taken from 0 in 64 bits (symbol_map.cc:1377), so that the removed function is written, with a total near 2^64,
and what was inlined into it is written as well. -/
theorem removed_function_written : 
    (mergeLlvm 5 .all { plainOpts with special := some ⟨[], [[102]], []⟩ } [some soleFile, some soleFile]).show = some [] ∧
    (mergeLlvm 5 .all { plainOpts with special := some ⟨[], [[102]], []⟩, level := 1 } [some soleFile, some soleFile]).show = some
      [([102], [[], [2 ^ 64 - 5, 0], [1 * 2 ^ 32, 25, 2 * 2 ^ 32, 10]]), ([104], [[], [15, 10], [1 * 2 ^ 32, 10, 2 * 2 ^ 32, 5]])] := by decide +kernel

/-- `f` with four functions inlined at one location. -/
def hotFile : File := ⟨[([102], .mk ⟨44, 1, []⟩ [((1 * 2 ^ 32, [104]), .mk ⟨12, 0, [(1 * 2 ^ 32, ⟨12, 0, []⟩)]⟩ []), ((1 * 2 ^ 32, [105]), .mk ⟨11, 0, [(1 * 2 ^ 32, ⟨11, 0, []⟩)]⟩ []),
  ((1 * 2 ^ 32, [106]), .mk ⟨11, 0, [(1 * 2 ^ 32, ⟨11, 0, []⟩)]⟩ []), ((1 * 2 ^ 32, [107]), .mk ⟨10, 0, [(1 * 2 ^ 32, ⟨10, 0, []⟩)]⟩ [])])], none⟩

/-- The limit of the inlined callees takes the dropped ones off the total, which is then compared with a threshold that was computed with them: the only function of a
profile is lost. -/
theorem limited_function_lost :
    (mergeLlvm 5 .all { plainOpts with num := 1, den := 2 } [some hotFile]).show.map List.length = some 1 ∧
    (mergeLlvm 5 .all { plainOpts with num := 1, den := 2, cutoff := 1 } [some hotFile]).show = some [] := by decide +kernel

end Verif.MergerLlvm
