import Verif.ComputeMain
import Verif.ElideAlias

/-!
# C69: functions with several names (symbol_map.cc:343-356, 427-446; profile.cc:153-269)

`map_` holds pointers, and `AddSymbol` lets all names of a function point to one symbol.  The profile is computed here on such a
map (`Store`, see `Verif.Elide`), every access going through the pointers; `Verif.Compute` is the same computation without
aliases.
-/
namespace Verif.Compute
open Verif Verif.SymbolMap Verif.AddrLookup Verif.Sample

/-- `SymbolMap::AddSymbol` (symbol_map.cc:343-356); `al` is `name_alias_map_`. -/
def _root_.Verif.SymbolMap.Store.addSymbol (al : Name → List Name) (st : Store) (n : Name) : Store :=
  match OMap.find? st.map n with
  | some _ => st
  | none => ⟨(al n).foldl (fun m a => OMap.set a st.next m) (OMap.set n st.next st.map),
      setHeap st.heap st.next Sym.new, st.next + 1⟩

/-- `map_.find(name)->second` (symbol_map.cc:523, 574, 597) and an update of the symbol found; `none`: there is none. -/
def _root_.Verif.SymbolMap.Store.update (st : Store) (n : Name) (f : Sym → Sym) : Option Store :=
  match OMap.find? st.map n with
  | none => none
  | some i => some { st with heap := setHeap st.heap i (f (st.heap i)) }

/-- `SymbolMap::AddSourceCount` (symbol_map.cc:567-591). -/
def _root_.Verif.SymbolMap.Store.addSourceCount (st : Store) (name : Name) (src : List Frame) (count numInst dup : Nat)
    (mul : Bool) (ds : DataSource) : Option Store :=
  match src with
  | [] => some st
  | src0 :: _ => st.update name (Sym.addAlong (if dup ≠ 1 ∧ mul = true then count * dup else count)
      (leafCount ds.needConversion src0 (if dup ≠ 1 ∧ mul = true then count * dup else count) numInst)
      (walk ds.needConversion src.reverse))

/-- `SymbolMap::AddIndirectCallTarget` (symbol_map.cc:593-607). -/
def _root_.Verif.SymbolMap.Store.addIndirectCallTarget (pol : Policy) (st : Store) (name : Name) (src : List Frame)
    (target : Name) (count : Nat) (ds : DataSource) : Option Store :=
  match src with
  | [] => some st
  | src0 :: _ => st.update name (Sym.addAlong 0 (leafTarget ds.needConversion src0 (originalName pol target) count)
      (walk ds.needConversion src.reverse))

/-- `SymbolMap::AddSymbolEntryCount` (symbol_map.cc:521-526). -/
def _root_.Verif.SymbolMap.Store.addSymbolEntryCount (st : Store) (name : Name) (head total : Nat) : Option Store :=
  st.update name fun
    | .mk d cs => .mk { d with head := d.head + head, total := d.total + total } cs

/-- `BuildPerFunctionInstructionMap` (instruction_map.cc:17-43). -/
def buildInstA (b : Bin) (name : Name) (x : FnMaps) (st : Store) : Option Store :=
  (List.range' x.start (x.stop - x.start)).foldlM
    (fun st a => st.addSourceCount name (b.stack a) 0 1 1 false .perfData) st

/-- The second loop of `ProcessPerFunctionProfile` (profile.cc:183-195). -/
def weightStepA (b : Bin) (c : Cfg) (name : Name) (x : FnMaps) (st : Store) (e : Nat × Nat) : Option Store :=
  if x.has e.1 then
    match b.stack e.1 with
    | [] => some st
    | f :: t => st.addSourceCount name (f :: t) e.2 0 (b.dup e.1) c.mul .perfData
  else some st

/-- The branch loop (profile.cc:197-212). -/
def branchStepA (b : Bin) (c : Cfg) (name : Name) (x : FnMaps) (st : Store) (e : Pair × Nat) : Option Store :=
  if x.has (ofLex e.1).1 then
    match nameByStart b.syms (ofLex e.1).2 with
    | none => some st
    | some callee =>
      if (OMap.find? st.map callee).isSome then
        (st.addSymbolEntryCount callee e.2 0).bind (fun st =>
          st.addIndirectCallTarget c.pol name (b.stack (ofLex e.1).1) callee e.2 .perfData)
      else some st
  else some st

/-- `ProcessPerFunctionProfile` (profile.cc:153-217). -/
def processA (b : Bin) (c : Cfg) (st : Store) (p : Name × FnMaps) : Option Store :=
  (buildInstA b p.1 p.2 st).bind (fun st =>
    if c.lbr = true ∧ p.2.maps.range.isEmpty = true then some st
    else ((weights c.lbr p.2).foldlM (weightStepA b c p.1 p.2) st).bind (fun st =>
      p.2.maps.branch.foldlM (branchStepA b c p.1 p.2) st))

/-- The default mode of `ComputeProfile` (profile.cc:219-222, 240-269) up to `ElideSuffixesAndMerge`. -/
def computeOrderA (b : Bin) (al : Name → List Name) (c : Cfg) (threshold : Nat) (order : List (Name × FnMaps)) :
    Option Store :=
  (emitted c threshold order).foldlM (processA b c)
    ((emitted c threshold order).foldl (fun st p => st.addSymbol al p.1) ⟨[], fun _ => Sym.new, 0⟩)

/-! ## Specification -/

/-- No name stands for two functions: a name recorded as an alias is not the name of another function and not an alias of
another function. -/
structure AliasOk (b : Bin) (al : Name → List Name) : Prop where
  prim : ∀ e ∈ b.syms, ∀ e' ∈ b.syms, e'.2.1 ∈ al e.2.1 → e'.2.1 = e.2.1
  other : ∀ e ∈ b.syms, ∀ e' ∈ b.syms, ∀ a, a ∈ al e.2.1 → a ∈ al e'.2.1 → e.2.1 = e'.2.1

/-- `n` is a name of the function `f`. -/
def IsName (al : Name → List Name) (f n : Name) : Prop := n = f ∨ n ∈ al f

instance (al : Name → List Name) (f n : Name) : Decidable (IsName al f n) := by unfold IsName; infer_instance

/-! ## Proof -/

/-- The two computations agree. -/
structure Sim (U : Name → Prop) (al : Name → List Name) (st : Store) (m : SymMap) : Prop where
  inv : st.Inv
  sorted : OMap.Sorted m
  dom : ∀ n s, OMap.find? m n = some s → U n
  prim : ∀ n s, OMap.find? m n = some s → ∃ i, OMap.find? st.map n = some i ∧ st.heap i = s
  inj : ∀ n n' s s' i, OMap.find? m n = some s → OMap.find? m n' = some s' → OMap.find? st.map n = some i →
    OMap.find? st.map n' = some i → n = n'
  only : ∀ a i, OMap.find? st.map a = some i → ∃ n s, OMap.find? m n = some s ∧ OMap.find? st.map n = some i ∧ IsName al n a
  ali : ∀ n s a, OMap.find? m n = some s → a ∈ al n → OMap.find? st.map a = OMap.find? st.map n

/-- `AliasOk` for a set of names. -/
structure AlOk (U : Name → Prop) (al : Name → List Name) : Prop where
  prim : ∀ n n', U n → U n' → n' ∈ al n → n' = n
  other : ∀ n n' a, U n → U n' → a ∈ al n → a ∈ al n' → n = n'

variable {U : Name → Prop} {al : Name → List Name}

theorem Sim.none_iff (hU : AlOk U al) {st : Store} {m : SymMap} (h : Sim U al st m) {n : Name} (hn : U n) :
    OMap.find? st.map n = none ↔ OMap.find? m n = none := by
  constructor
  · intro hs
    cases hm : OMap.find? m n with
    | none => rfl
    | some s => obtain ⟨i, hi, _⟩ := h.prim n s hm; rw [hs] at hi; cases hi
  · intro hm
    cases hs : OMap.find? st.map n with
    | none => rfl
    | some i =>
      obtain ⟨n', s, h1, _, h3⟩ := h.only n i hs
      have : n = n' := by
        rcases h3 with h3 | h3
        · exact h3
        · exact hU.prim n' n (h.dom n' s h1) hn h3
      rw [this, h1] at hm; cases hm

theorem foldl_set_find (l : List Name) (i : Nat) (m : OMap Name Nat) (hm : OMap.Sorted m) (x : Name) :
    OMap.Sorted (l.foldl (fun m a => OMap.set a i m) m) ∧
    OMap.find? (l.foldl (fun m a => OMap.set a i m) m) x = if x ∈ l then some i else OMap.find? m x := by
  induction l generalizing m with
  | nil => exact ⟨hm, by simp⟩
  | cons a t ih =>
    have hs : OMap.Sorted (OMap.set a i m) := OMap.Sorted.upsert hm _ _
    obtain ⟨h1, h2⟩ := ih _ hs
    refine ⟨h1, ?_⟩
    rw [List.foldl_cons, h2]
    unfold OMap.set
    rw [OMap.find?_upsert hm]
    by_cases hx : x ∈ t
    · simp [hx]
    · by_cases ha : x = a <;> simp [hx, ha]

theorem Sim.add (hU : AlOk U al) {st : Store} {m : SymMap} (h : Sim U al st m) (n : Name) (hn : U n) :
    Sim U al (st.addSymbol al n) (OMap.emplace n Sym.new m) := by
  unfold Store.addSymbol
  have hf : ∀ x, OMap.find? (OMap.emplace n Sym.new m) x =
      if x = n then some ((OMap.find? m n).getD Sym.new) else OMap.find? m x := by
    intro x; unfold OMap.emplace; rw [OMap.find?_upsert h.sorted]; split <;> simp_all
  have hsort : OMap.Sorted (OMap.emplace n Sym.new m) := OMap.Sorted.upsert h.sorted _ _
  cases hs : OMap.find? st.map n with
  | some i =>
    simp only
    have hm : ∃ s, OMap.find? m n = some s := by
      cases hm : OMap.find? m n with
      | some s => exact ⟨s, rfl⟩
      | none => rw [(h.none_iff hU hn).2 hm] at hs; cases hs
    obtain ⟨s, hm⟩ := hm
    have hf' : ∀ x, OMap.find? (OMap.emplace n Sym.new m) x = OMap.find? m x := by
      intro x; rw [hf]; by_cases hx : x = n
      · subst hx; rw [if_pos rfl, hm]; rfl
      · rw [if_neg hx]
    exact ⟨h.inv, hsort, fun n s => by rw [hf']; exact h.dom n s, fun n s => by rw [hf']; exact h.prim n s,
      fun n n' s s' i => by rw [hf', hf']; exact h.inj n n' s s' i, fun a i hi => by
        obtain ⟨n, s, h1, h2⟩ := h.only a i hi; exact ⟨n, s, by rw [hf']; exact h1, h2⟩,
      fun n s a => by rw [hf']; exact h.ali n s a⟩
  | none =>
    simp only
    have hm := (h.none_iff hU hn).1 hs
    have hset : ∀ x, OMap.find? (OMap.set n st.next st.map) x = if x = n then some st.next else OMap.find? st.map x := by
      intro x; unfold OMap.set; rw [OMap.find?_upsert h.inv.sorted]; split <;> simp_all
    have hss : OMap.Sorted (OMap.set n st.next st.map) := OMap.Sorted.upsert h.inv.sorted _ _
    obtain ⟨ms, hms⟩ : ∃ ms, ms = (al n).foldl (fun m a => OMap.set a st.next m) (OMap.set n st.next st.map) := ⟨_, rfl⟩
    have hmsS : OMap.Sorted ms := by rw [hms]; exact (foldl_set_find _ _ _ hss n).1
    have hmf : ∀ x, OMap.find? ms x = if IsName al n x then some st.next else OMap.find? st.map x := by
      intro x
      rw [hms, (foldl_set_find _ _ _ hss x).2, hset]
      unfold IsName
      by_cases h1 : x ∈ al n <;> by_cases h2 : x = n <;> simp [h1, h2]
    rw [← hms]
    have hnew : ∀ x i, OMap.find? st.map x = some i → i ≠ st.next := fun x i hx => (h.inv.alloc x i hx).ne
    have hsep : ∀ n' s, OMap.find? m n' = some s → ¬ IsName al n n' := by
      intro n' s hn' hc
      rcases hc with hc | hc
      · rw [hc, hm] at hn'; cases hn'
      · have := hU.prim n n' hn (h.dom n' s hn') hc
        rw [this, hm] at hn'; cases hn'
    have hold : ∀ n' s, OMap.find? m n' = some s → OMap.find? ms n' = OMap.find? st.map n' := by
      intro n' s hn'; rw [hmf, if_neg (hsep n' s hn')]
    refine ⟨⟨hmsS, ?_, ?_⟩, hsort, ?_, ?_, ?_, ?_, ?_⟩
    · intro x i hx
      simp only at hx ⊢
      rw [hmf] at hx
      split at hx
      · cases hx; omega
      · have := h.inv.alloc x i hx; omega
    · intro i hi
      simp only [setHeap] at hi ⊢
      split
      · exact Sym.WF.new
      · exact h.inv.wf i (by omega)
    · intro x s hx
      rw [hf] at hx
      split at hx
      · rename_i hx'; rw [hx']; exact hn
      · exact h.dom x s hx
    · intro x s hx
      rw [hf] at hx
      simp only
      by_cases hxn : x = n
      · rw [if_pos hxn, hm] at hx
        refine ⟨st.next, by rw [hmf, if_pos (show IsName al n _ from Or.inl hxn)], ?_⟩
        simpa [setHeap] using hx
      · rw [if_neg hxn] at hx
        obtain ⟨i, h1, h2⟩ := h.prim x s hx
        refine ⟨i, by rw [hold x s hx]; exact h1, ?_⟩
        simp only [setHeap, if_neg (hnew x i h1)]
        exact h2
    · intro x y s s' i hx hy hxi hyi
      rw [hf] at hx hy
      simp only at hxi hyi
      by_cases hxn : x = n <;> by_cases hyn : y = n
      · rw [hxn, hyn]
      · rw [if_neg hyn] at hy
        rw [hold y s' hy] at hyi
        rw [hmf, if_pos (show IsName al n _ from Or.inl hxn)] at hxi
        cases hxi
        exact absurd rfl (hnew _ _ hyi)
      · rw [if_neg hxn] at hx
        rw [hold x s hx] at hxi
        rw [hmf, if_pos (show IsName al n _ from Or.inl hyn)] at hyi
        cases hyi
        exact absurd rfl (hnew _ _ hxi)
      · rw [if_neg hxn] at hx
        rw [if_neg hyn] at hy
        rw [hold x s hx] at hxi
        rw [hold y s' hy] at hyi
        exact h.inj x y s s' i hx hy hxi hyi
    · intro a i ha
      simp only at ha ⊢
      rw [hmf] at ha
      split at ha
      · rename_i hia
        cases ha
        exact ⟨n, Sym.new, by rw [hf, if_pos rfl, hm]; rfl, by rw [hmf, if_pos (show IsName al n _ from Or.inl rfl)], hia⟩
      · obtain ⟨x, s, h1, h2, h3⟩ := h.only a i ha
        have hxn : x ≠ n := by intro hc; rw [hc, hm] at h1; cases h1
        exact ⟨x, s, by rw [hf, if_neg hxn]; exact h1, by rw [hold x s h1]; exact h2, h3⟩
    · intro x s a hx ha
      rw [hf] at hx
      simp only
      by_cases hxn : x = n
      · rw [hmf, hmf, if_pos (show IsName al n _ from Or.inl hxn), if_pos (show IsName al n _ from Or.inr (hxn ▸ ha))]
      · rw [if_neg hxn] at hx
        rw [hold x s hx, hmf, if_neg, h.ali x s a hx ha]
        intro hc
        rcases hc with hc | hc
        · exact hxn (hU.prim x n (h.dom x s hx) hn (hc ▸ ha)).symm
        · exact hxn (hU.other x n a (h.dom x s hx) hn ha hc)

/-- The same outcome: failure of both, or related results. -/
def Same (U : Name → Prop) (al : Name → List Name) : Option Store → Option SymMap → Prop
  | none, none => True
  | some st, some m => Sim U al st m
  | _, _ => False

theorem Sim.update (hU : AlOk U al) {st : Store} {m : SymMap} (h : Sim U al st m) (n : Name) (hn : U n) (f : Sym → Sym)
    (hwf : ∀ s, s.WF → (f s).WF) : Same U al (st.update n f) ((OMap.find? m n).map fun s => OMap.set n (f s) m) := by
  unfold Store.update
  cases hm : OMap.find? m n with
  | none => rw [(h.none_iff hU hn).2 hm]; trivial
  | some s =>
    obtain ⟨i, hi, hs⟩ := h.prim n s hm
    rw [hi]
    simp only [Option.map_some, Same]
    have hf : ∀ x, OMap.find? (OMap.set n (f s) m) x = if x = n then some (f s) else OMap.find? m x := by
      intro x; unfold OMap.set; rw [OMap.find?_upsert h.sorted]; split <;> simp_all
    have hback : ∀ x t, OMap.find? (OMap.set n (f s) m) x = some t → ∃ t', OMap.find? m x = some t' := by
      intro x t hx
      rw [hf] at hx
      by_cases hxn : x = n
      · rw [hxn]; exact ⟨s, hm⟩
      · rw [if_neg hxn] at hx; exact ⟨t, hx⟩
    refine ⟨⟨h.inv.sorted, h.inv.alloc, ?_⟩, OMap.Sorted.upsert h.sorted _ _, ?_, ?_, ?_, ?_, ?_⟩
    · intro j hj
      simp only [setHeap]
      split
      · exact hwf _ (h.inv.wf i (h.inv.alloc n i hi))
      · exact h.inv.wf j hj
    · intro x t hx
      obtain ⟨t', h'⟩ := hback x t hx
      exact h.dom x t' h'
    · intro x t hx
      rw [hf] at hx
      by_cases hxn : x = n
      · rw [if_pos hxn] at hx
        cases hx
        refine ⟨i, by rw [hxn]; exact hi, ?_⟩
        simp [setHeap, hs]
      · rw [if_neg hxn] at hx
        obtain ⟨j, h1, h2⟩ := h.prim x t hx
        refine ⟨j, h1, ?_⟩
        have : j ≠ i := fun hc => hxn (h.inj x n t s i hx hm (hc ▸ h1) hi)
        simp only [setHeap, if_neg this]
        exact h2
    · intro x y t t' j hx hy
      obtain ⟨a, ha⟩ := hback x t hx
      obtain ⟨a', ha'⟩ := hback y t' hy
      exact h.inj x y a a' j ha ha'
    · intro a j ha
      obtain ⟨x, t, h1, h2⟩ := h.only a j ha
      by_cases hxn : x = n
      · exact ⟨x, f s, by rw [hf, if_pos hxn], h2⟩
      · exact ⟨x, t, by rw [hf, if_neg hxn]; exact h1, h2⟩
    · intro x t a hx
      obtain ⟨t', h'⟩ := hback x t hx
      exact h.ali x t' a h'

theorem Same.bind {x : Option Store} {y : Option SymMap} {f : Store → Option Store} {g : SymMap → Option SymMap}
    (h : Same U al x y) (hfg : ∀ st m, Sim U al st m → Same U al (f st) (g m)) : Same U al (x.bind f) (y.bind g) := by
  cases x <;> cases y
  · trivial
  · exact h.elim
  · exact h.elim
  · exact hfg _ _ h

theorem Same.foldlM {A : Type} (l : List A) (f : Store → A → Option Store) (g : SymMap → A → Option SymMap)
    (hfg : ∀ x ∈ l, ∀ st m, Sim U al st m → Same U al (f st x) (g m x)) {st : Store} {m : SymMap} (h : Sim U al st m) :
    Same U al (l.foldlM f st) (l.foldlM g m) := by
  induction l generalizing st m with
  | nil => exact h
  | cons x t ih =>
    rw [foldlM_cons', foldlM_cons']
    exact (hfg x List.mem_cons_self st m h).bind fun st m h => ih (fun y hy => hfg y (List.mem_cons_of_mem _ hy)) h

theorem Sim.source (hU : AlOk U al) {st : Store} {m : SymMap} (h : Sim U al st m) (n : Name) (hn : U n) (src : List Frame)
    (count inst dup : Nat) (mul : Bool) (ds : DataSource) :
    Same U al (st.addSourceCount n src count inst dup mul ds) (addSourceCount m n src count inst dup mul ds) := by
  unfold Store.addSourceCount addSourceCount
  cases src with
  | nil => exact h
  | cons f t =>
    have := h.update hU n hn (Sym.addAlong (if dup ≠ 1 ∧ mul = true then count * dup else count)
      (leafCount ds.needConversion f (if dup ≠ 1 ∧ mul = true then count * dup else count) inst)
      (walk ds.needConversion (f :: t).reverse))
      (fun s hs => addAlong_WF _ _ (fun d h1 h2 => leafCount_WF _ _ _ _ d h1 h2) _ _ hs)
    simp only
    cases hm : OMap.find? m n <;> rw [hm] at this <;> exact this

theorem Sim.target (hU : AlOk U al) {st : Store} {m : SymMap} (h : Sim U al st m) (pol : Policy) (n : Name) (hn : U n)
    (src : List Frame) (tgt : Name) (count : Nat) (ds : DataSource) :
    Same U al (st.addIndirectCallTarget pol n src tgt count ds)
      ((addIndirectCallTarget pol m n src tgt count ds).map Prod.fst) := by
  unfold Store.addIndirectCallTarget addIndirectCallTarget
  cases src with
  | nil => exact h
  | cons f t =>
    have := h.update hU n hn (Sym.addAlong 0 (leafTarget ds.needConversion f (originalName pol tgt) count)
      (walk ds.needConversion (f :: t).reverse))
      (fun s hs => addAlong_WF _ _ (fun d h1 h2 => leafTarget_WF _ _ _ _ d h1 h2) _ _ hs)
    simp only
    cases hm : OMap.find? m n <;> rw [hm] at this <;> exact this

theorem Sim.head (hU : AlOk U al) {st : Store} {m : SymMap} (h : Sim U al st m) (n : Name) (hn : U n) (x y : Nat) :
    Same U al (st.addSymbolEntryCount n x y) (addSymbolEntryCount m n x y) := by
  unfold Store.addSymbolEntryCount addSymbolEntryCount
  have := h.update hU n hn (fun | .mk d cs => .mk { d with head := d.head + x, total := d.total + y } cs) (by
    intro s hs
    obtain ⟨d, cs⟩ := s
    rw [Sym.WF_iff] at hs ⊢
    exact hs)
  cases hm : OMap.find? m n with
  | none => rw [hm] at this; exact this
  | some s => obtain ⟨d, cs⟩ := s; rw [hm] at this; exact this

theorem Sim.process (hU : AlOk U al) (b : Bin) (c : Cfg) (hb : ∀ e ∈ b.syms, U e.2.1) {st : Store} {m : SymMap}
    (h : Sim U al st m) (p : Name × FnMaps) (hp : U p.1) : Same U al (processA b c st p) (process b c m p) := by
  unfold processA Compute.process
  apply Same.bind
  · unfold buildInstA buildInst
    exact Same.foldlM _ _ _ (fun a _ st m h => h.source hU p.1 hp (b.stack a) 0 1 1 false .perfData) h
  intro st m h
  by_cases hc : c.lbr = true ∧ p.2.maps.range.isEmpty = true
  · rw [if_pos hc, if_pos hc]; exact h
  rw [if_neg hc, if_neg hc]
  apply Same.bind
  · apply Same.foldlM _ _ _ _ h
    intro e _ st m h
    unfold weightStepA weightStep
    cases p.2.has e.1
    · exact h
    · simp only [if_true]
      cases b.stack e.1 with
      | nil => exact h
      | cons f t => exact h.source hU p.1 hp _ _ _ _ _ _
  intro st m h
  apply Same.foldlM _ _ _ _ h
  intro e _ st m h
  unfold branchStepA branchStep
  cases p.2.has (ofLex e.1).1
  · exact h
  simp only [if_true]
  cases hn : nameByStart b.syms (ofLex e.1).2 with
  | none => exact h
  | some callee =>
    have hcal : U callee := by
      unfold nameByStart at hn
      cases hf : OMap.find? b.syms (ofLex e.1).2 with
      | none => rw [hf] at hn; cases hn
      | some q =>
        rw [hf] at hn
        cases hn
        exact hb _ (OMap.mem_of_find?_some hf)
    simp only
    have hiff := h.none_iff hU hcal
    have : (OMap.find? st.map callee).isSome = (OMap.find? m callee).isSome := by
      cases h1 : OMap.find? st.map callee <;> cases h2 : OMap.find? m callee
      · rfl
      · rw [h1, h2] at hiff; simp at hiff
      · rw [h1, h2] at hiff; simp at hiff
      · rfl
    rw [this]
    split
    · exact (h.head hU callee hcal e.2 0).bind fun st m h => h.target hU c.pol p.1 hp _ _ _ _
    · exact h

theorem Sim.addAll (hU : AlOk U al) (l : List (Name × FnMaps)) (hl : ∀ p ∈ l, U p.1) {st : Store} {m : SymMap}
    (h : Sim U al st m) : Sim U al (l.foldl (fun st p => st.addSymbol al p.1) st)
      (l.foldl (fun m p => OMap.emplace p.1 Sym.new m) m) := by
  induction l generalizing st m with
  | nil => exact h
  | cons p t ih => exact ih (fun q hq => hl q (List.mem_cons_of_mem _ hq)) (h.add hU p.1 (hl p List.mem_cons_self))

theorem computeOrderA_same (b : Bin) (al : Name → List Name) (ha : AliasOk b al) (c : Cfg) (thr : Nat)
    (order : List (Name × FnMaps)) (ho : ∀ p ∈ order, ∃ e ∈ b.syms, e.2.1 = p.1) :
    Same (fun n => ∃ e ∈ b.syms, e.2.1 = n) al (computeOrderA b al c thr order) (computeOrder b c thr order) := by
  have hU : AlOk (fun n => ∃ e ∈ b.syms, e.2.1 = n) al := by
    constructor
    · rintro n n' ⟨e, he, rfl⟩ ⟨e', he', rfl⟩ h
      exact ha.prim e he e' he' h
    · rintro n n' a ⟨e, he, rfl⟩ ⟨e', he', rfl⟩ h h'
      exact ha.other e he e' he' a h h'
  have hem : ∀ p ∈ emitted c thr order, ∃ e ∈ b.syms, e.2.1 = p.1 := fun p hp => ho p (List.mem_filter.1 hp).1
  unfold computeOrderA computeOrder
  apply Same.foldlM
  · intro p hp st m h
    exact h.process hU b c (fun e he => ⟨e, he, rfl⟩) p (hem p hp)
  · apply Sim.addAll hU _ hem
    refine ⟨⟨OMap.sorted_nil, ?_, ?_⟩, OMap.sorted_nil, ?_, ?_, ?_, ?_, ?_⟩ <;> intros <;> simp_all [OMap.find?]

/-- **C69.** For every binary with a well-formed symbol table in which no name stands for two functions, every set of samples,
every order in which the functions are visited and every configuration: the names in the profile are exactly the names of the
functions whose samples (with those of the functions of the same base name) exceed the threshold; all names of such a function
stand for one symbol, which has the profile that the function has without aliases; and different functions have different
symbols. -/
theorem alias_profile (b : Bin) (hb : BinOk b) (al : Name → List Name) (ha : AliasOk b al) (c : Cfg) (S : Maps) (thr : Nat) :
    ∃ P, aggregate b S = some P ∧ ∀ order : List (Name × FnMaps), order.Perm P →
      ∃ st, computeOrderA b al c thr order = some st ∧ st.Inv ∧
        (∀ n, (OMap.find? st.map n).isSome = true ↔
          ∃ e ∈ b.syms, familyCount b c S e.2.1 > thr ∧ IsName al e.2.1 n) ∧
        (∀ e ∈ b.syms, familyCount b c S e.2.1 > thr → ∃ i, FunctionProfile b c S thr e (st.heap i) ∧
          ∀ n, IsName al e.2.1 n → OMap.find? st.map n = some i) ∧
        ∀ e ∈ b.syms, ∀ e' ∈ b.syms, familyCount b c S e.2.1 > thr → familyCount b c S e'.2.1 > thr → e ≠ e' →
          OMap.find? st.map e.2.1 ≠ OMap.find? st.map e'.2.1 := by
  obtain ⟨P, hP, hperm⟩ := aggregate_spec b hb S
  obtain ⟨P', hP', hC⟩ := compute_profile b hb c S thr
  rw [hP] at hP'
  cases hP'
  refine ⟨P, hP, ?_⟩
  intro order ho
  obtain ⟨m, hm, hwf, hdom, hprof⟩ := hC order ho
  have hs := computeOrderA_same b al ha c thr order (by
    intro p hp
    have := (ho.trans hperm).subset hp
    obtain ⟨e, he, rfl⟩ := List.mem_map.1 this
    exact ⟨e, he, rfl⟩)
  rw [hm] at hs
  cases hst : computeOrderA b al c thr order with
  | none => rw [hst] at hs; exact hs.elim
  | some st =>
    rw [hst] at hs
    have hs : Sim _ al st m := hs
    have hsome : ∀ e ∈ b.syms, familyCount b c S e.2.1 > thr → ∃ s, OMap.find? m e.2.1 = some s := by
      intro e he hf
      exact Option.isSome_iff_exists.1 ((hdom e.2.1).2 ⟨e, he, rfl, hf⟩)
    have hname : ∀ n s, OMap.find? m n = some s → ∃ e ∈ b.syms, e.2.1 = n ∧ familyCount b c S n > thr := by
      intro n s hn
      exact (hdom n).1 (by rw [hn]; rfl)
    have hptr : ∀ e ∈ b.syms, familyCount b c S e.2.1 > thr → ∃ i, OMap.find? st.map e.2.1 = some i ∧
        st.heap i = m.get e.2.1 ∧ ∀ n, IsName al e.2.1 n → OMap.find? st.map n = some i := by
      intro e he hf
      obtain ⟨s, h1⟩ := hsome e he hf
      obtain ⟨i, h2, h3⟩ := hs.prim _ s h1
      refine ⟨i, h2, by rw [h3]; unfold SymMap.get; rw [h1]; rfl, ?_⟩
      intro n hn
      rcases hn with rfl | hn
      · exact h2
      · rw [hs.ali _ s n h1 hn, h2]
    refine ⟨st, rfl, hs.inv, ?_, ?_, ?_⟩
    · intro n
      constructor
      · intro h
        obtain ⟨i, hi⟩ := Option.isSome_iff_exists.1 h
        obtain ⟨f, s, h1, _, h3⟩ := hs.only n i hi
        obtain ⟨e, he, rfl, hf⟩ := hname f s h1
        exact ⟨e, he, hf, h3⟩
      · rintro ⟨e, he, hf, hn⟩
        obtain ⟨i, _, _, h⟩ := hptr e he hf
        rw [h n hn]; rfl
    · intro e he hf
      obtain ⟨i, _, h2, h⟩ := hptr e he hf
      exact ⟨i, h2 ▸ hprof e he hf, h⟩
    · intro e he e' he' hf hf' hne heq
      obtain ⟨s, h1⟩ := hsome e he hf
      obtain ⟨s', h1'⟩ := hsome e' he' hf'
      obtain ⟨i, h2, _⟩ := hptr e he hf
      exact hne (hb.unique he he' (hs.inj _ _ s s' i h1 h1' h2 (heq ▸ h2)))

/-- `ComputeProfile` in its default mode (profile.cc:219-222, 240-270), with the elision of suffixes. -/
def computeProfileA (b : Bin) (al : Name → List Name) (c : Cfg) (threshold : Nat) (order : List (Name × FnMaps)) :
    Option Store :=
  (computeOrderA b al c threshold order).bind (elide c.pol)

/-- Samples of the instructions of a function that come from an inline path. -/
def fnSamples (b : Bin) (c : Cfg) (S : Maps) (e : Nat × Name × Nat) (p : List Callsite) : Nat :=
  ((List.range' e.1 e.2.2).map (fun a =>
    if through true (b.stack a) p = true then scale b c a (weight b c S e.1 (e.1 + e.2.2) a) else 0)).sum

/-- **C69 (nothing is counted twice).** In the whole profile, after the elision of suffixes, the totals of the distinct symbols
add up to the samples of the functions written, at every inline path, however many names these functions have. -/
theorem alias_total (b : Bin) (hb : BinOk b) (al : Name → List Name) (ha : AliasOk b al) (c : Cfg) (S : Maps) (thr : Nat) :
    ∃ P, aggregate b S = some P ∧ ∀ order : List (Name × FnMaps), order.Perm P →
      ∃ st, computeProfileA b al c thr order = some st ∧ ∀ p, ∑ i ∈ st.live, (st.heap i).totalAt p =
        ((b.syms.filter fun e => decide (familyCount b c S e.2.1 > thr)).map fun e => fnSamples b c S e p).sum := by
  obtain ⟨P, hP, h⟩ := alias_profile b hb al ha c S thr
  refine ⟨P, hP, ?_⟩
  intro order ho
  obtain ⟨st, h1, hinv, hnames, hprof, hdist⟩ := h order ho
  obtain ⟨st', h2, _, htot, _⟩ := elide_conserves c.pol st hinv
  refine ⟨st', by unfold computeProfileA; rw [h1]; exact h2, ?_⟩
  intro p
  rw [htot p]
  have hnd : (b.syms.filter fun e => decide (familyCount b c S e.2.1 > thr)).Nodup :=
    (List.Nodup.of_map _ hb.names).filter _
  rw [← List.sum_toFinset _ hnd]
  symm
  apply Finset.sum_bij (fun e _ => (OMap.find? st.map e.2.1).getD 0)
  · intro e he
    simp only [List.mem_toFinset, List.mem_filter, decide_eq_true_eq] at he
    obtain ⟨i, _, hi⟩ := hprof e he.1 he.2
    have := hi e.2.1 (Or.inl rfl)
    rw [Store.mem_live hinv.sorted]
    exact ⟨e.2.1, by rw [this]; rfl⟩
  · intro e he e' he' hee
    simp only [List.mem_toFinset, List.mem_filter, decide_eq_true_eq] at he he'
    obtain ⟨i, _, hi⟩ := hprof e he.1 he.2
    obtain ⟨i', _, hi'⟩ := hprof e' he'.1 he'.2
    by_contra hne
    apply hdist e he.1 e' he'.1 he.2 he'.2 hne
    rw [hi e.2.1 (Or.inl rfl), hi' e'.2.1 (Or.inl rfl)] at hee ⊢
    exact congrArg some hee
  · intro i hi
    obtain ⟨n, hn⟩ := (Store.mem_live hinv.sorted i).1 hi
    obtain ⟨e, he, hf, hnm⟩ := (hnames n).1 (by rw [hn]; rfl)
    obtain ⟨j, _, hj⟩ := hprof e he hf
    have h3 := hj n hnm
    rw [hn] at h3
    cases h3
    exact ⟨e, by simp only [List.mem_toFinset, List.mem_filter, decide_eq_true_eq]; exact ⟨he, hf⟩, by
      rw [hj e.2.1 (Or.inl rfl)]; rfl⟩
  · intro e he
    simp only [List.mem_toFinset, List.mem_filter, decide_eq_true_eq] at he
    obtain ⟨i, hp, hi⟩ := hprof e he.1 he.2
    rw [hi e.2.1 (Or.inl rfl)]
    exact (hp.total p).symm

/-- **C69 (with the elision of suffixes).** If the names of the functions written have no suffixes to be removed, the final map
is the one of `alias_profile`. -/
theorem alias_elide (pol : Policy) (st : Store) (h : ∀ n, (OMap.find? st.map n).isSome → originalName pol n = n) :
    elide pol st = some st := by
  unfold elide
  have : elideSet pol st.map = [] := by
    unfold elideSet
    rw [List.filter_eq_nil_iff]
    intro n hn
    simp [h n ((OMap.mem_keys_iff n).1 hn)]
  rw [this]
  rfl

/-! ## Examples -/

/-- `a` is also called `x`, and is in two symbol tables; `c` is also called `y` and `z`. -/
def exAlias (n : Name) : List Name := if n = [97] then [[97], [120]] else if n = [99] then [[121], [122]] else []

theorem exAlias_ok : AliasOk exBin exAlias := by
  constructor
  · intro e he e' he' h
    simp only [exBin, List.mem_cons, List.not_mem_nil, or_false] at he he'
    rcases he with rfl | rfl <;> rcases he' with rfl | rfl <;> simp [exAlias] at h ⊢
  · intro e he e' he' a h h'
    simp only [exBin, List.mem_cons, List.not_mem_nil, or_false] at he he'
    rcases he with rfl | rfl <;> rcases he' with rfl | rfl <;> simp [exAlias] at h h' ⊢
    · rcases h with rfl | rfl <;> simp at h'
    · rcases h with rfl | rfl <;> simp at h'

/-- All five names have the profile of their function. -/
example : ((aggregate exBin exSamples).bind (computeProfileA exBin exAlias ⟨true, false, .all⟩ 10)).map (fun st =>
    (st.map.map Prod.fst, (st.sym [97]).totalAt [], (st.sym [120]).totalAt [], (st.sym [99]).headAt [],
      (st.sym [122]).headAt [])) = some ([[97], [99], [120], [121], [122]], 72, 72, 7, 7) := by decide +kernel

/-- C69 violated when a name stands for two functions (a local function `c` at the address of `a`, and another `c`): depending
on the order of a hash map, `c` has the symbol of `a`, which gets the samples of both functions and the entry count of `c`; the
name `c` has no profile of its own. -/
theorem alias_collision_violated :
    ((aggregate exBin exSamples).bind fun P =>
      (computeProfileA exBin (fun n => if n = [97] then [[99]] else []) ⟨true, false, .none⟩ 10 P.reverse).map fun st =>
        (decide (OMap.find? st.map [97] = OMap.find? st.map [99]), (st.sym [97]).totalAt [], (st.sym [97]).headAt [])) =
      some (true, 92, 7) ∧
    ((aggregate exBin exSamples).bind fun P =>
      (computeProfileA exBin (fun _ => []) ⟨true, false, .none⟩ 10 P.reverse).map fun st =>
        ((st.sym [97]).totalAt [], (st.sym [97]).headAt [], (st.sym [99]).totalAt [])) = some (72, 0, 20) := by
  constructor <;> decide +kernel

/-- C12 and C69: an alias with a suffix joins two functions.  If `a` is also called `c.x`, eliding the suffix gives the
instructions of `a` the samples of `c` and vice versa. -/
theorem alias_suffix_violated :
    ((aggregate exBin exSamples).bind
      (computeProfileA exBin (fun n => if n = [97] then [[99, 46, 120]] else []) ⟨true, false, .all⟩ 10)).map (fun st =>
        ((st.sym [97]).totalAt [], (st.sym [99]).totalAt [], (st.sym [97]).headAt [])) = some (92, 92, 7) := by
  decide +kernel

end Verif.Compute
