import Verif.Merger
import Verif.AfdoWitness

/-!
# C76: the merged profile

What `profile_merger` (profile_merger.cc:144-187) writes, read back.
-/
namespace Verif.Merger
open Verif Verif.Gcov Verif.SymbolMap Verif.Afdo

/-! ## The parts of an input -/

theorem writeTops_ok {N : Name → Prop} (v : Nat) (strs : List Name) : ∀ (l : List (Name × Top)) (b : List UInt8),
    (∀ q ∈ l, SymFits q.2.sym ∧ ∀ n ∈ symNames q.2.sym, N n) → writeTops v strs l = some b →
    (∀ q ∈ l, q.1 ≠ [] ∧ ∀ e ∈ symEvents [] q.2.sym, EvOk N e) ∧ (l.map fun q => (symEvents [] q.2.sym).length + 1).sum ≤ b.length
  | [], b, _, _ => by simp
  | (n, t) :: r, b, hl, h => by
    simp only [writeTops] at h
    cases ha : writeTop v strs n t with
    | none => simp [ha] at h
    | some a =>
      cases hb : writeTops v strs r with
      | none => simp [ha, hb] at h
      | some b' =>
        simp only [ha, hb, Option.some.injEq] at h
        obtain ⟨i1, i2⟩ := writeTops_ok v strs r b' (fun q hq => hl q (by simp [hq])) hb
        unfold writeTop at ha
        split at ha
        · cases ha
        next hn =>
        cases hi : indexOf n strs with
        | none => simp [hi] at ha
        | some i =>
          cases hs : writeSym strs t.sym with
          | none => simp [hi, hs] at ha
          | some c =>
            simp only [hi, hs] at ha
            split at ha
            · cases ha
            simp only [Option.some.injEq] at ha
            obtain ⟨f, g⟩ := hl (n, t) (by simp)
            obtain ⟨e1, e2⟩ := symEvents_ok strs t.sym f g c hs [] (by simp)
            refine ⟨?_, ?_⟩
            · intro q hq
              rcases List.mem_cons.1 hq with rfl | hq
              · exact ⟨hn, e1⟩
              · exact i1 q hq
            · subst h; subst ha
              simp only [List.map_cons, List.sum_cons, List.length_append, writeUnsigned_length]
              omega

theorem flatMap_length_le {A B : Type} (f : A → List B) (h : ∀ a, 1 ≤ (f a).length) : ∀ l : List A, l.length ≤ (l.flatMap f).length
  | [] => by simp
  | a :: t => by
    have := flatMap_length_le f h t
    have := h a
    simp only [List.flatMap_cons, List.length_append, List.length_cons]
    omega

theorem input_parts {N : Name → Prop} {pol : Policy} {x : Input} (ok : x.Ok pol) (hN : ∀ n ∈ profileNames x.profile.syms, N n) :
    (∀ q ∈ x.profile.syms, q.1 ≠ [] ∧ N q.1 ∧ ∀ e ∈ symEvents [] q.2.sym, EvOk N e) ∧
    (x.profile.syms.map fun q => (symEvents [] q.2.sym).length + 1).sum + (stringTable x.profile.syms).length ≤ x.bytes.length := by
  have hN' : ∀ q ∈ x.profile.syms, N q.1 ∧ ∀ n ∈ symNames q.2.sym, N n := by
    intro q hq
    constructor
    · apply hN; simp only [profileNames, List.mem_cons, List.mem_flatMap]; exact Or.inr ⟨q, hq, Or.inl rfl⟩
    · intro n hn; apply hN; simp only [profileNames, List.mem_cons, List.mem_flatMap]; exact Or.inr ⟨q, hq, Or.inr hn⟩
  have hw := ok.written
  unfold writeFile functionBody at hw
  simp only at hw
  cases hb : writeTops x.version (stringTable x.profile.syms) x.profile.syms with
  | none => simp [hb] at hw
  | some b =>
    simp only [hb, Option.map_some, Option.some.injEq] at hw
    obtain ⟨h1, h2⟩ := writeTops_ok x.version _ x.profile.syms b (fun q hq => ⟨(ok.fits.tops q hq).sym, (hN' q hq).2⟩) hb
    refine ⟨fun q hq => ⟨(h1 q hq).1, (hN' q hq).1, (h1 q hq).2⟩, ?_⟩
    rw [← hw]
    have := flatMap_length_le (writeName x.version x.profile.fileIdx) (by
      intro a
      unfold writeName writeString
      split <;> simp [le32] <;> omega) (stringTable x.profile.syms)
    simp only [writeNames, List.length_append]
    omega

/-! ## Sizes -/

theorem addAlong_counts (e : Ev) (c : Nat) : ∀ (p : List Callsite) (s : Sym),
    (Summary.symCounts (Sym.addAlong c (fun d => { d with pos := e.onPos d.pos }) p s)).length ≤ (Summary.symCounts s).length + 1
  | [], .mk d cs => by
    have : (e.onPos d.pos).length ≤ d.pos.length + 1 := by
      cases e <;> exact upsert_length _ _ _
    simp only [Sym.addAlong, Summary.symCounts, List.length_append, List.length_map]
    omega
  | k :: p, .mk d cs => by
    have key : ∀ cs : List (Callsite × Sym), (Summary.callCounts (modifyAt cs k fun o =>
        Sym.addAlong c (fun d => { d with pos := e.onPos d.pos }) p (o.getD Sym.new))).length ≤ (Summary.callCounts cs).length + 1 := by
      intro cs
      induction cs with
      | nil =>
        have := addAlong_counts e c p Sym.new
        simp only [modifyAt, Summary.callCounts, Option.getD_none, List.append_nil]
        simpa [Summary.symCounts, Sym.new, Data.zero, Summary.callCounts] using this
      | cons a t ih =>
        obtain ⟨k', v⟩ := a
        unfold modifyAt
        split
        · have := addAlong_counts e c p v
          simp only [Summary.callCounts, Option.getD_some, List.length_append]
          omega
        · simp only [Summary.callCounts, List.length_append]
          omega
    have := key cs
    simp only [Sym.addAlong, Summary.symCounts, List.length_append]
    omega

theorem loadTop_counts (t : Top) (r : Sym) :
    (Summary.symCounts (loadTop t r)).length ≤ (Summary.symCounts r).length + (symEvents [] t.sym).length := by
  have key : ∀ (es : List Ev) (s : Sym), (Summary.symCounts (es.foldl Ev.app s)).length ≤ (Summary.symCounts s).length + es.length := by
    intro es
    induction es with
    | nil => intro s; simp
    | cons e es ih =>
      intro s
      have h1 := ih (Ev.app s e)
      have h2 : (Summary.symCounts (Ev.app s e)).length ≤ _ := addAlong_counts e e.weight e.path s
      simp only [List.foldl_cons, List.length_cons]
      omega
  unfold loadTop
  refine le_trans (key _ _) ?_
  cases r with
  | mk d cs => simp [Summary.symCounts, Sym.data, Sym.calls]

theorem sum_set_le (μ : Sym → Nat) (m : SymMap) (k : Name) (v : Sym) (w : Nat) (hm : OMap.Sorted m)
    (hv : μ v ≤ ((OMap.find? m k).map μ).getD 0 + w) : ((OMap.set k v m).map fun x => μ x.2).sum ≤ (m.map fun x => μ x.2).sum + w := by
  induction m with
  | nil => simp [OMap.set, OMap.upsert, OMap.find?] at hv ⊢; omega
  | cons a t ih =>
    obtain ⟨k', u⟩ := a
    have ht := (List.pairwise_cons.1 hm).2
    have hlt := (List.pairwise_cons.1 hm).1
    have ih := ih ht
    unfold OMap.set at ih ⊢
    unfold OMap.upsert
    by_cases h1 : k < k'
    · rw [if_pos h1]
      have : OMap.find? ((k', u) :: t) k = none := by
        cases hf : OMap.find? ((k', u) :: t) k with
        | none => rfl
        | some z =>
          have := OMap.mem_of_find?_some hf
          rcases List.mem_cons.1 this with h | h
          · simp only [Prod.mk.injEq] at h
            exact absurd h1 (by rw [h.1]; exact lt_irrefl _)
          · exact absurd (lt_trans h1 (hlt _ h)) (lt_irrefl _)
      rw [this] at hv
      simp at hv ⊢
      omega
    · rw [if_neg h1]
      by_cases h2 : k = k'
      · rw [if_pos h2]
        simp [OMap.find?, h2] at hv ⊢
        omega
      · rw [if_neg h2]
        simp only [OMap.find?, if_neg h2] at hv
        have := ih hv
        simp only [List.map_cons, List.sum_cons]
        omega

theorem loadAll_le (μ : Sym → Nat) (w : Top → Nat) (h0 : μ Sym.new = 0) (hμ : ∀ t r, μ (loadTop t r) ≤ μ r + w t) (syms : List (Name × Top)) :
    ∀ (m : SymMap), OMap.Sorted m →
    ((loadAll syms m).map fun x => μ x.2).sum ≤ (m.map fun x => μ x.2).sum + (syms.map fun q => w q.2).sum := by
  induction syms with
  | nil => intro m _; simp [loadAll]
  | cons p syms ih =>
    intro m hm
    obtain ⟨k, t⟩ := p
    have e : loadAll ((k, t) :: syms) m = loadAll syms (OMap.set k (loadTop t ((OMap.find? m k).getD Sym.new)) m) := by
      simp [loadAll]
    rw [e]
    have h1 := ih _ (sorted_set hm k (loadTop t ((OMap.find? m k).getD Sym.new)))
    have h2 := sum_set_le μ m k (loadTop t ((OMap.find? m k).getD Sym.new)) (w t) hm (by
      have := hμ t ((OMap.find? m k).getD Sym.new)
      cases hf : OMap.find? m k with
      | none => rw [hf] at this; simp only [Option.getD_none, h0] at this; simpa [h0] using this
      | some z => rw [hf] at this; simpa using this)
    simp only [List.map_cons, List.sum_cons]
    omega

/-- The sizes after reading `xs`. -/
structure Sizes (xs : List Input) (m : SymMap) : Prop where
  length : m.length ≤ (xs.map fun x => x.profile.syms.length).sum
  heads : (m.map fun p => p.2.data.head).sum ≤ (xs.map fun x => (x.profile.syms.map fun q => q.2.sym.data.head).sum).sum
  counts : (m.map fun p => (Summary.symCounts p.2).length).sum ≤
    (xs.map fun x => (x.profile.syms.map fun q => (symEvents [] q.2.sym).length).sum).sum

theorem loadAll_length (syms : List (Name × Top)) : ∀ m : SymMap, (loadAll syms m).length ≤ m.length + syms.length := by
  induction syms with
  | nil => intro m; simp [loadAll]
  | cons p syms ih =>
    intro m
    obtain ⟨k, t⟩ := p
    have e : loadAll ((k, t) :: syms) m = loadAll syms (OMap.set k (loadTop t ((OMap.find? m k).getD Sym.new)) m) := by
      simp [loadAll]
    rw [e]
    have h1 := ih (OMap.set k (loadTop t ((OMap.find? m k).getD Sym.new)) m)
    have h2 : (OMap.set k (loadTop t ((OMap.find? m k).getD Sym.new)) m).length ≤ m.length + 1 := upsert_length _ _ _
    simp only [List.length_cons]
    omega

theorem loadTop_head (t : Top) (r : Sym) : (loadTop t r).data.head = r.data.head + t.sym.data.head := by
  have key : ∀ (es : List Ev) (s : Sym), (es.foldl Ev.app s).data.head = s.data.head := by
    intro es
    induction es with
    | nil => intro s; rfl
    | cons e es ih =>
      intro s
      rw [List.foldl_cons, ih]
      unfold Ev.app
      cases s with
      | mk d cs => cases e.path <;> rfl
  unfold loadTop
  rw [key]
  rfl

theorem loadAll_sizes {xs : List Input} {m : SymMap} (hm : OMap.Sorted m) (x : Input) (h : Sizes xs m) : Sizes (xs ++ [x]) (loadAll x.profile.syms m) := by
  refine ⟨?_, ?_, ?_⟩
  · have := loadAll_length x.profile.syms m
    have := h.length
    simp; omega
  · have := loadAll_le (fun s => s.data.head) (fun t => t.sym.data.head) rfl (fun t r => by rw [loadTop_head]) x.profile.syms m hm
    have := h.heads
    simp at *; omega
  · have := loadAll_le (fun s => (Summary.symCounts s).length) (fun t => (symEvents [] t.sym).length) rfl loadTop_counts x.profile.syms m hm
    have := h.counts
    simp at *; omega

theorem read_sizes (pol : Policy) (flag : Nat) (xs : List Input) (hx : ∀ x ∈ xs, x.Ok pol) :
    ∀ s, (xs.map fun x => some x.bytes).foldlM (readInput pol) ⟨[], [], List.replicate 128 (0, 0), flag⟩ = some s → Sizes xs s.map := by
  induction xs using List.reverseRecOn with
  | nil => intro s h; cases h; exact ⟨by simp, by simp, by simp⟩
  | append_singleton xs x ih =>
    intro s h
    obtain ⟨s', h1, h2⟩ := read_inputs pol flag xs (fun y hy => hx y (by simp [hy]))
    have i := ih (fun y hy => hx y (by simp [hy])) s' h1
    have ok := hx x (by simp)
    have hr := readFile_enc x.version (by simpa using ok.version) x.profile ok.fits true pol ok.fix ok.plain x.bytes ok.written s'.map s'.ts
      h2.sorted (Or.inl rfl)
    rw [List.map_append, List.foldlM_append, h1] at h
    simp only [Option.bind_eq_bind, Option.bind_some, List.map_cons, List.map_nil, List.foldlM_cons, List.foldlM_nil, readInput] at h
    rw [hr, Option.bind_some, fileVersion_enc ok.version ok.written] at h
    cases h
    exact loadAll_sizes h2.sorted x i

/-! ## The functions of the merged profile -/

/-- The names of the inputs. -/
def Known (xs : List Input) (n : Name) : Prop := n = [] ∨ ∃ x ∈ xs, n ∈ profileNames x.profile.syms

theorem topsOf_mem {xs : List Input} {n : Name} {t : Top} (h : t ∈ topsOf xs n) : ∃ x ∈ xs, (n, t) ∈ x.profile.syms := by
  unfold topsOf at h
  obtain ⟨x, hx, hf⟩ := List.mem_filterMap.1 h
  exact ⟨x, hx, OMap.mem_of_find?_some hf⟩

theorem topsOf_events (xs : List Input) (n : Name) : ((topsOf xs n).map fun t => (symEvents [] t.sym).length).sum ≤
    (xs.map fun x => (x.profile.syms.map fun q => (symEvents [] q.2.sym).length).sum).sum := by
  induction xs with
  | nil => simp [topsOf]
  | cons x xs ih =>
    unfold topsOf at ih ⊢
    rw [List.filterMap_cons]
    cases hf : OMap.find? x.profile.syms n with
    | none => simp; omega
    | some t =>
      have := List.single_le_sum (fun _ _ => Nat.zero_le _) _
        (List.mem_map.2 ⟨_, OMap.mem_of_find?_some hf, rfl⟩ : (symEvents [] t.sym).length ∈ x.profile.syms.map fun q => (symEvents [] q.2.sym).length)
      simp only [List.map_cons, List.sum_cons]
      omega

/-- The bytes of the inputs bound the events and the names. -/
theorem inputs_bytes {pol : Policy} : ∀ (xs : List Input) (_ : ∀ x ∈ xs, x.Ok pol),
    (xs.map fun x => (x.profile.syms.map fun q => (symEvents [] q.2.sym).length).sum).sum + (xs.map fun x => x.profile.syms.length).sum +
      (xs.map fun x => (stringTable x.profile.syms).length).sum ≤ (xs.map fun x => x.bytes.length).sum
  | [], _ => by simp
  | x :: xs, hx => by
    have h1 := inputs_bytes xs (fun y hy => hx y (by simp [hy]))
    have h2 := (input_parts (N := fun _ => True) (hx x (by simp)) (fun _ _ => trivial)).2
    have h3 : (x.profile.syms.map fun q => (symEvents [] q.2.sym).length + 1).sum =
        (x.profile.syms.map fun q => (symEvents [] q.2.sym).length).sum + x.profile.syms.length := by
      rw [List.sum_map_add]; simp
    simp only [List.map_cons, List.sum_cons]
    omega

/-- What is known of a function of the merged map. -/
structure FnOk (xs : List Input) (E : Nat) (n : Name) (s : Sym) : Prop where
  name : n ≠ []
  known : Known xs n
  some : topsOf xs n ≠ []
  eq : s = mergedSym (topsOf xs n)
  good : Good (Known xs) E s
  wf : s.WF

theorem after_fn {pol : Policy} {flag : Nat} {xs : List Input} (hx : ∀ x ∈ xs, x.Ok pol) {s : State} (ha : After flag xs s) :
    ∀ p ∈ s.map, FnOk xs ((xs.map fun x => x.bytes.length).sum) p.1 p.2 := by
  intro p hp
  have hf := (OMap.find?_eq_some_iff ha.sorted).2 hp
  rw [ha.map p.1] at hf
  split at hf
  · cases hf
  next hne =>
  simp only [Option.some.injEq] at hf
  have hparts : ∀ t ∈ topsOf xs p.1, ∃ x ∈ xs, p.1 ≠ [] ∧ p.1 ∈ profileNames x.profile.syms ∧ ∀ e ∈ symEvents [] t.sym, EvOk (Known xs) e := by
    intro t ht
    obtain ⟨x, hxx, hq⟩ := topsOf_mem ht
    obtain ⟨a1, a2, a3⟩ := (input_parts (N := fun n => n ∈ profileNames x.profile.syms) (hx x hxx) (fun _ h => h)).1 _ hq
    obtain ⟨b1, b2, b3⟩ := (input_parts (N := Known xs) (hx x hxx) (fun n hn => Or.inr ⟨x, hxx, hn⟩)).1 _ hq
    exact ⟨x, hxx, a1, a2, b3⟩
  obtain ⟨t0, ht0⟩ := List.exists_mem_of_ne_nil _ hne
  obtain ⟨x0, hx0, c1, c2, -⟩ := hparts t0 ht0
  refine ⟨c1, Or.inr ⟨x0, hx0, c2⟩, hne, hf.symm, ?_, hf ▸ mergedSym_WF _⟩
  rw [← hf]
  refine Good.mono ?_ _ (mergedSym_good (N := Known xs) (topsOf xs p.1) (fun t ht => by
    obtain ⟨_, _, _, _, h⟩ := hparts t ht
    exact h))
  have h1 := topsOf_events xs p.1
  have h2 := inputs_bytes xs hx
  omega

/-! ## The merged profile fits -/

mutual
theorem symCounts_sum : (s : Sym) → (Summary.symCounts s).sum = samples s
  | .mk d cs => by rw [Summary.symCounts, samples, List.sum_append, callCounts_sum cs]
theorem callCounts_sum : (cs : List (Callsite × Sym)) → (Summary.callCounts cs).sum = samplesCalls cs
  | [] => rfl
  | (_, s) :: t => by rw [Summary.callCounts, samplesCalls, List.sum_append, symCounts_sum s, callCounts_sum t]
end

theorem sum_filter_le {A : Type} (f : A → Nat) (p : A → Bool) : ∀ l : List A, ((l.filter p).map f).sum ≤ (l.map f).sum
  | [] => by simp
  | a :: t => by
    have := sum_filter_le f p t
    rw [List.filter_cons]
    split <;> simp <;> omega

theorem sum_flatMap {A : Type} (f : A → List Nat) : ∀ l : List A, (l.flatMap f).sum = (l.map fun a => (f a).sum).sum
  | [] => rfl
  | a :: t => by simp [sum_flatMap f t]

theorem detailed_length (total : Nat) : ∀ (ks : List Nat) (c : Summary.Cursor), (Summary.detailed total ks c).length = ks.length
  | [], _ => rfl
  | _ :: ks, c => by simp [Summary.detailed, detailed_length total ks]

theorem summary_fits (threshold : Nat) (m : SymMap) (A B C : Nat) (hA : A < 18446744073709551616) (hB : B < 18446744073709551616)
    (hC : C < 18446744073709551616) (hm : m.length < 18446744073709551616)
    (h1 : (m.map fun p => samples p.2).sum ≤ A) (h2 : (m.map fun p => (Summary.symCounts p.2).length).sum ≤ B)
    (h3 : (m.map fun p => p.2.data.head).sum ≤ C) : SummaryFits (summaryOf threshold m) := by
  obtain ⟨t1, t2, ⟨t3, t4⟩, t5, t6, t7⟩ := Summary.summary_totals threshold m Summary.defaultCutoffs
  have hsum : (Summary.allCounts threshold m).sum ≤ A := by
    refine le_trans ?_ h1
    unfold Summary.allCounts Summary.emitted
    rw [sum_flatMap, List.map_map]
    have := sum_filter_le (fun p : Name × Sym => samples p.2) (fun e => decide (e.2.data.total > threshold)) m
    simpa only [Function.comp_def, symCounts_sum] using this
  have hlen : (Summary.allCounts threshold m).length ≤ B := by
    refine le_trans ?_ h2
    unfold Summary.allCounts Summary.emitted
    rw [List.length_flatMap, List.map_map]
    exact sum_filter_le (fun p => (Summary.symCounts p.2).length) _ m
  have hmem : ∀ c ∈ Summary.allCounts threshold m, c ≤ A := fun c hc => le_trans (List.single_le_sum (fun _ _ => Nat.zero_le _) _ hc) hsum
  refine ⟨?_, ?_, ?_, ?_, ?_, ?_, ?_⟩
  · show (Summary.compute threshold m Summary.defaultCutoffs).1.total < _
    rw [t1]; omega
  · show (Summary.compute threshold m Summary.defaultCutoffs).1.maxCount < _
    rcases t4 with h | h
    · have := hmem _ h; omega
    · omega
  · show (Summary.compute threshold m Summary.defaultCutoffs).1.maxFunction < _
    rcases t7 with h | h
    · obtain ⟨q, hq, he⟩ := List.mem_map.1 h
      unfold Summary.emitted at hq
      obtain ⟨q', hq', rfl⟩ := List.mem_map.1 hq
      have := List.single_le_sum (fun _ _ => Nat.zero_le _) _
        (List.mem_map.2 ⟨q', List.mem_of_mem_filter hq', rfl⟩ : q'.2.data.head ∈ m.map fun p => p.2.data.head)
      omega
    · omega
  · show (Summary.compute threshold m Summary.defaultCutoffs).1.numCounts < _
    rw [t2]; omega
  · show (Summary.compute threshold m Summary.defaultCutoffs).1.numFunctions < _
    rw [t5]
    have : (Summary.emitted threshold m).length ≤ m.length := by
      unfold Summary.emitted; rw [List.length_map]; exact List.length_filter_le _ _
    omega
  · simp only [summaryOf, List.length_map, Summary.compute, detailed_length]
    decide
  · intro d hd
    simp only [summaryOf, List.mem_map] at hd
    obtain ⟨e, he, rfl⟩ := hd
    obtain ⟨i, hi, hie⟩ := List.mem_iff_getElem.1 he
    have hi' : i < Summary.defaultCutoffs.length := by
      simpa [Summary.compute, detailed_length] using hi
    obtain ⟨v, n, e1, e2, e3⟩ := Summary.detailed_summary threshold m Summary.defaultCutoffs Summary.defaultCutoffs_ok.1 i hi'
    rw [List.getElem?_eq_getElem hi, Option.some.injEq, hie] at e1
    subst e1
    have hk := Summary.defaultCutoffs_ok.1 _ (List.getElem_mem hi')
    have hor : (v = 0 ∧ n = 0) ∨ (v ∈ Summary.allCounts threshold m ∧ n = Summary.numGe (Summary.allCounts threshold m) v) := by
      by_cases hD : (Summary.defaultCutoffs.take (i + 1)).foldl (fun d k => max d ((Summary.allCounts threshold m).sum * k / 1000000)) 0 = 0
      · exact Or.inl (e2 hD)
      · exact Or.inr ⟨(e3 hD).1, (e3 hD).2.1⟩
    have h5 : Summary.numGe (Summary.allCounts threshold m) v ≤ (Summary.allCounts threshold m).length := List.length_filter_le _ _
    refine ⟨?_, ?_, ?_⟩
    · show Summary.defaultCutoffs[i] < _
      omega
    · show v < _
      rcases hor with h | h
      · omega
      · have := hmem _ h.1; omega
    · show n < _
      rcases hor with h | h <;> omega

theorem update_fold : ∀ (l : List (Nat × Nat)) (w : Nat × Nat), w.1 < 2 ^ 32 → (∀ y ∈ l, y.1 < 2 ^ 32) →
    (l.foldl updateWorkingSet w).1 < 2 ^ 32 ∧ (l.foldl updateWorkingSet w).2 = w.2 + (l.map Prod.snd).sum
  | [], w, h, _ => ⟨h, by simp⟩
  | y :: t, w, h, hl => by
    have h1 : (updateWorkingSet w y).1 < 2 ^ 32 := by
      unfold updateWorkingSet
      have := hl y (by simp)
      simp only
      split
      · exact this
      · omega
    have := update_fold t (updateWorkingSet w y) h1 (fun z hz => hl z (by simp [hz]))
    refine ⟨this.1, ?_⟩
    rw [List.foldl_cons, this.2]
    simp [updateWorkingSet]
    omega

theorem wsAt_fits {pol : Policy} {xs : List Input} (hx : ∀ x ∈ xs, x.Ok pol) (i : Nat) :
    (wsAt xs i).1 < 2 ^ 32 ∧ (wsAt xs i).2 = (xs.map fun x => ((x.profile.workingSet[i]?).map Prod.snd).getD 0).sum := by
  unfold wsAt
  obtain ⟨h1, h2⟩ := update_fold (xs.map fun x => (((x.profile.workingSet[i]?).getD (0, 0)).1 / 10 * 10, ((x.profile.workingSet[i]?).getD (0, 0)).2)) (0, 0)
    (by decide) (by
      intro y hy
      obtain ⟨x, hxx, rfl⟩ := List.mem_map.1 hy
      simp only
      cases hw : x.profile.workingSet[i]? with
      | none => decide
      | some w =>
        have := ((hx x hxx).fits.ws w (List.mem_of_getElem? hw)).1
        simp only [Option.getD_some]
        omega)
  refine ⟨h1, ?_⟩
  rw [h2, List.map_map]
  simp only [Nat.zero_add, Function.comp_def]
  congr 1
  apply List.map_congr_left
  intro x _
  cases x.profile.workingSet[i]? <;> rfl

/-! ## The threshold -/

theorem nodup_keys {m : SymMap} (hm : OMap.Sorted m) : (m.map Prod.fst).Nodup := by
  refine List.Pairwise.imp (fun h => ne_of_lt h) (?_ : (m.map Prod.fst).Pairwise (· < ·))
  rw [List.pairwise_map]
  exact hm

theorem totalCount_nodup : ∀ (m : SymMap) (vis : List Name) (acc : Nat), (m.map Prod.fst).Nodup → (∀ n ∈ vis, n ∉ m.map Prod.fst) →
    Threshold.totalCount (entriesOf m) vis acc = acc + (m.map fun p => p.2.data.total).sum
  | [], _, _, _, _ => by simp [entriesOf, Threshold.totalCount]
  | (n, s) :: t, vis, acc, hn, hv => by
    simp only [List.map_cons, List.nodup_cons] at hn
    have h0 : n ∉ vis := fun h => hv n h (by simp)
    have := totalCount_nodup t (n :: vis) (acc + s.data.total) hn.2 (by
      intro k hk
      rcases List.mem_cons.1 hk with rfl | hk
      · exact hn.1
      · exact fun h => hv k hk (by simp [h]))
    simp only [entriesOf, List.map_cons, Threshold.totalCount, if_neg h0] at this ⊢
    rw [this]
    simp
    omega

/-- Above the threshold. -/
theorem above_iff (num den : Nat) (m : SymMap) (hm : OMap.Sorted m) (t : Nat) :
    ((t : Int) > (Threshold.calculate num den (entriesOf m) : Nat)) ↔ t > 10 ∧ t > (m.map fun p => p.2.data.total).sum * num / den := by
  unfold Threshold.calculate
  rw [totalCount_nodup m [] 0 (nodup_keys hm) (by simp), Nat.zero_add]
  unfold Threshold.fromTotal Threshold.kMinSamples
  generalize (m.map fun p => p.2.data.total).sum * num / den = a
  simp only
  split <;> omega

/-! ## The output -/

/-- The functions written, with `g` for the timestamps. -/
def outSyms (thr : Nat) (m : SymMap) (g : Name → Nat) : List (Name × Top) := emitted thr (m.map fun x => (x.1, ⟨x.2, g x.1⟩))

theorem mem_outSyms {thr : Nat} {m : SymMap} {g : Name → Nat} {q : Name × Top} :
    q ∈ outSyms thr m g ↔ (q.1, q.2.sym) ∈ m ∧ q.2.ts = g q.1 ∧ (q.2.sym.data.total : Int) > thr := by
  unfold outSyms emitted
  simp only [List.mem_filter, List.mem_map, decide_eq_true_eq]
  constructor
  · rintro ⟨⟨p, hp, rfl⟩, h⟩; exact ⟨hp, rfl, h⟩
  · rintro ⟨h1, h2, h3⟩
    refine ⟨⟨_, h1, ?_⟩, h3⟩
    obtain ⟨n, t⟩ := q
    cases t
    simp only at h2
    simp [h2]

theorem outSyms_nodup {thr : Nat} {m : SymMap} {g : Name → Nat} (hm : OMap.Sorted m) : ((outSyms thr m g).map Prod.fst).Nodup := by
  unfold outSyms emitted
  have : ((m.map fun x => (x.1, (⟨x.2, g x.1⟩ : Top))).map Prod.fst).Nodup := by
    rw [List.map_map]
    exact nodup_keys hm
  exact this.sublist ((List.filter_sublist).map _)

theorem outSyms_find {thr : Nat} {m : SymMap} {g : Name → Nat} (hm : OMap.Sorted m) (n : Name) :
    OMap.find? (outSyms thr m g) n = (OMap.find? m n).bind fun s => if (s.data.total : Int) > thr then some ⟨s, g n⟩ else none := by
  have hs : OMap.Sorted (outSyms thr m g) := by
    unfold outSyms emitted
    apply List.Pairwise.filter
    rw [List.pairwise_map]
    exact hm
  cases hf : OMap.find? (outSyms thr m g) n with
  | some t =>
    obtain ⟨h1, h2, h3⟩ := mem_outSyms.1 (OMap.mem_of_find?_some hf)
    rw [(OMap.find?_eq_some_iff hm).2 h1, Option.bind_some, if_pos h3]
    cases t
    simp only at h2
    simp [h2]
  | none =>
    cases hm' : OMap.find? m n with
    | none => rfl
    | some s =>
      rw [Option.bind_some]
      split
      · next h =>
        have : (n, (⟨s, g n⟩ : Top)) ∈ outSyms thr m g := mem_outSyms.2 ⟨OMap.mem_of_find?_some hm', rfl, h⟩
        rw [(OMap.find?_eq_some_iff hs).2 this] at hf
        cases hf
      · rfl

/-- The timestamp of a function: of the last input that has the function, 0 before version 3. -/
def lastTs (xs : List Input) (n : Name) : Nat :=
  ((xs.reverse.findSome? fun x => (OMap.find? x.profile.syms n).map fun t => if x.version ≥ 3 then t.ts else 0)).getD 0

theorem lastTs_lt {pol : Policy} {xs : List Input} (hx : ∀ x ∈ xs, x.Ok pol) (n : Name) : lastTs xs n < 18446744073709551616 := by
  unfold lastTs
  cases h : xs.reverse.findSome? fun x => (OMap.find? x.profile.syms n).map fun t => if x.version ≥ 3 then t.ts else 0 with
  | none => decide
  | some v =>
    obtain ⟨x, hxx, hv⟩ := List.exists_of_findSome?_eq_some h
    cases hf : OMap.find? x.profile.syms n with
    | none => rw [hf] at hv; cases hv
    | some t =>
      rw [hf] at hv
      simp only [Option.map_some, Option.some.injEq] at hv
      have := ((hx x (List.mem_reverse.1 hxx)).fits.tops _ (OMap.mem_of_find?_some hf)).ts
      simp only [Option.getD_some]
      split at hv <;> simp only at this <;> omega

theorem known_fits {pol : Policy} {xs : List Input} (hx : ∀ x ∈ xs, x.Ok pol) {n : Name} (h : Known xs n) : NameFits n ∧ fixName n = n := by
  rcases h with rfl | ⟨x, hxx, hn⟩
  · exact ⟨⟨by simp, by decide⟩, by decide +kernel⟩
  · exact ⟨(hx x hxx).fits.names n hn, (hx x hxx).fix n hn⟩

theorem known_table {pol : Policy} {xs : List Input} (hx : ∀ x ∈ xs, x.Ok pol) {l : List Name} (hl : l.Nodup) (h : ∀ n ∈ l, Known xs n) :
    l.length ≤ max 1 (xs.map fun x => x.bytes.length).sum := by
  have h3 := inputs_bytes xs hx
  cases xs with
  | nil =>
    have h1 : l ⊆ [[]] := by
      intro n hn
      rcases h n hn with rfl | ⟨x, hxx, hn⟩
      · simp
      · simp at hxx
    exact le_trans (List.subperm_of_subset hl h1).length_le (by simp)
  | cons x0 xs =>
    have h1 : l ⊆ (x0 :: xs).flatMap fun x => stringTable x.profile.syms := by
      intro n hn
      rcases h n hn with rfl | ⟨x, hxx, hn⟩
      · exact List.mem_flatMap.2 ⟨x0, by simp, (mem_stringTable _ _).2 (by simp [profileNames])⟩
      · exact List.mem_flatMap.2 ⟨x, hxx, (mem_stringTable _ _).2 hn⟩
    have h2 := (List.subperm_of_subset hl h1).length_le
    rw [List.length_flatMap] at h2
    omega

/-- The file names of the output fit. -/
structure FilesFit (files : List Name) (fileIdx : Name → Option Nat) : Prop where
  names : ∀ n ∈ files, NameFits n
  num : files.length < 2 ^ 32
  idx : ∀ n i, fileIdx n = some i → i < 2 ^ 32

theorem profile_fits {pol : Policy} {flag : Nat} {xs : List Input} (hx : ∀ x ∈ xs, x.Ok pol) (hs : Small xs) {s : State} (ha : After flag xs s)
    (hz : Sizes xs s.map) (num den : Nat) {files : List Name} {fileIdx : Name → Option Nat} (hf : FilesFit files fileIdx) :
    ProfileFits (profileOf num den files fileIdx s) ∧
    (∀ q ∈ (profileOf num den files fileIdx s).syms, FnOk xs ((xs.map fun x => x.bytes.length).sum) q.1 q.2.sym) ∧
    (∀ n ∈ profileNames (profileOf num den files fileIdx s).syms, Known xs n) ∧
    (profileOf num den files fileIdx s).syms = outSyms (Threshold.calculate num den (entriesOf s.map)) s.map (lastTs xs) := by
  have heq : (profileOf num den files fileIdx s).syms = outSyms (Threshold.calculate num den (entriesOf s.map)) s.map (lastTs xs) := by
    unfold profileOf outSyms
    simp only
    congr 1
    apply List.map_congr_left
    intro x _
    rw [ha.ts x.1]
    rfl
  have hfn : ∀ q ∈ (profileOf num den files fileIdx s).syms, FnOk xs ((xs.map fun x => x.bytes.length).sum) q.1 q.2.sym := by
    intro q hq
    rw [heq] at hq
    exact after_fn hx ha _ (mem_outSyms.1 hq).1
  have hkn : ∀ n ∈ profileNames (profileOf num den files fileIdx s).syms, Known xs n := by
    intro n hn
    simp only [profileNames, List.mem_cons, List.mem_flatMap] at hn
    rcases hn with rfl | ⟨q, hq, rfl | hn⟩
    · exact Or.inl rfl
    · exact (hfn q hq).known
    · exact good_names _ (hfn q hq).good n hn
  have hb := inputs_bytes xs hx
  have s1 := hs.size
  have s2 := hs.samples
  have s3 := hs.heads
  have hg := ha.grand
  refine ⟨⟨?_, ?_, ?_, ?_, ?_, hf.names, by show files.length < _; simpa using hf.num, fun n i h => by simpa using hf.idx n i h, ?_, ?_, ?_⟩, hfn, hkn, heq⟩
  · rw [heq]; exact outSyms_nodup ha.sorted
  · intro q hq
    have hq' := hq
    rw [heq] at hq'
    obtain ⟨m1, m2, m3⟩ := mem_outSyms.1 hq'
    have i1 := List.single_le_sum (fun _ _ => Nat.zero_le _) _
      (List.mem_map.2 ⟨_, m1, rfl⟩ : q.2.sym.data.total ∈ s.map.map fun x => x.2.data.total)
    have i2 := List.single_le_sum (fun _ _ => Nat.zero_le _) _
      (List.mem_map.2 ⟨_, m1, rfl⟩ : q.2.sym.data.head ∈ s.map.map fun x => x.2.data.head)
    have i3 := hz.heads
    refine ⟨good_fits (by simpa using s1) _ (hfn q hq).good (by omega), by omega, ?_⟩
    rw [m2]
    exact lastTs_lt hx q.1
  · have h1 : (profileOf num den files fileIdx s).syms.length ≤ s.map.length := by
      rw [heq]
      unfold outSyms emitted
      exact le_trans (List.length_filter_le _ _) (by simp)
    have h2 := hz.length
    omega
  · intro n hn
    exact (known_fits hx (hkn n hn)).1
  · have h1 := known_table hx (l := stringTable (profileOf num den files fileIdx s).syms)
      ((stringTable_sorted _).imp (fun h => ne_of_lt h)) (fun n hn => hkn n ((mem_stringTable _ _).1 hn))
    omega
  · have hsam : (s.map.map fun p => samples p.2) = s.map.map fun p => p.2.data.total := by
      apply List.map_congr_left
      intro p hp
      exact good_samples _ (after_fn hx ha p hp).good
    have h2 := hz.length
    refine summary_fits _ s.map (grand xs) _ _ (by simpa using s2) ?_ (by simpa using s3) ?_ ?_ hz.counts hz.heads
    · omega
    · omega
    · rw [hsam, hg]
  · show s.ws.length = 128
    rw [ha.ws]; simp
  · intro w hw
    change w ∈ s.ws at hw
    rw [ha.ws] at hw
    obtain ⟨i, _, rfl⟩ := List.mem_map.1 hw
    obtain ⟨h1, h2⟩ := wsAt_fits hx i
    have := hs.ws i
    exact ⟨by simpa using h1, by rw [h2]; simpa using this⟩

/-! ## C76 -/

/-- What the merged profile says. -/
structure MergedGcov (num den flag : Nat) (xs : List Input) (out : List UInt8) (R : ReadResult) : Prop where
  /-- The version of the last input, whatever `--gcov_version` says. -/
  version : fileVersion out = some (((xs.getLast?).map Input.version).getD flag)
  /-- Exactly the functions above the threshold. -/
  functions : ∀ n, (OMap.find? R.map n).isSome = true ↔ total xs n > 10 ∧ total xs n > grand xs * num / den
  sums : ∀ n s, OMap.find? R.map n = some s → Sums (copies xs n) s
  timestamps : ((xs.getLast?).map Input.version).getD flag ≥ 3 → ∀ n, (OMap.find? R.map n).isSome = true → OMap.find? R.ts n = some (lastTs xs n)
  workingSet : R.workingSet = (List.range 128).map fun i => ((wsAt xs i).1 / 10 * 10, (xs.map fun x => ((x.profile.workingSet[i]?).map Prod.snd).getD 0).sum)
  summary : ∀ S, R.summary = some S → S.total = (R.map.map fun p => p.2.data.total).sum ∧ S.numFunctions = R.map.length

theorem sums_reload {cs : List Sym} {s : Sym} {N : Name → Prop} {E ts : Nat} (hg : Good N E s) (hw : s.WF) (h : Sums cs s) :
    Sums cs (loadTop ⟨s, ts⟩ Sym.new) := by
  obtain ⟨h1, h2⟩ := loadTop_over ⟨s, ts⟩ hw Sym.new Sym.WF.new
  refine ⟨?_, ?_, ?_, ?_, ?_⟩
  · rw [h1, ← h.head]; simp [Sym.new, Sym.data, Data.zero]
  · intro p; rw [(h2 p).1, ← h.total, new_total, Nat.zero_add]; exact good_samplesAt hg p
  · intro p l; rw [((h2 p).2 l).1, ← h.count, new_count, Nat.zero_add]
  · intro p l n; rw [((h2 p).2 l).2, ← h.target, new_target]; simp
  · intro p
    rw [loadTop_isSome _ hw, ← h.nodes, Sym.new_node?, node?_at?]
    cases hu : s.at? p with
    | none =>
      simp only [Option.map_none, Option.isSome_none]
      constructor
      · rintro (hp | ⟨u, hu', _⟩)
        · by_cases hp' : p = []
          · subst hp'; cases s; simp [Sym.at?] at hu
          · rw [if_neg hp'] at hp; exact hp
        · simp [hu] at hu'
      · intro h; cases h
    | some u =>
      simp only [Option.map_some, Option.isSome_some, iff_true]
      rcases (good_at p s u hg hu).2 with rfl | hl
      · exact Or.inl (by simp)
      · exact Or.inr ⟨u, rfl, hl⟩

theorem lookup_of_mem : ∀ {cs : List (Callsite × Sym)}, (cs.map Prod.fst).Nodup → ∀ {p : Callsite × Sym}, p ∈ cs → lookup cs p.1 = some p.2
  | [], _, p, h => by cases h
  | (k, s) :: t, hn, p, h => by
    simp only [List.map_cons, List.nodup_cons] at hn
    rcases List.mem_cons.1 h with rfl | h
    · simp [lookup]
    · have : p.1 ≠ k := fun e => hn.1 (e ▸ List.mem_map.2 ⟨p, h, rfl⟩)
      simp only [lookup, if_neg this]
      exact lookup_of_mem hn.2 h

mutual
theorem symTargets_at : (s : Sym) → s.WF → ∀ n ∈ symTargets s, ∃ path loc c, targetAt s path loc n = some c
  | .mk d cs, hw, n, hn => by
    obtain ⟨w1, w2, w3, w4⟩ := hw
    rw [symTargets, List.mem_append] at hn
    rcases hn with hn | hn
    · simp only [targetNames, List.mem_flatMap, List.mem_map] at hn
      obtain ⟨p, hp, t, ht, rfl⟩ := hn
      refine ⟨[], p.1, t.2, ?_⟩
      show tgtOf d.pos p.1 t.1 = _
      unfold tgtOf
      rw [(OMap.find?_eq_some_iff w1).2 hp, Option.bind_some]
      exact (OMap.find?_eq_some_iff (w2 p hp)).2 ht
    · obtain ⟨p, hp, path, loc, c, h⟩ := callTargets_at cs w4 n hn
      refine ⟨p.1 :: path, loc, c, ?_⟩
      unfold targetAt at h ⊢
      simp only [Sym.node?, Sym.calls, lookup_of_mem w3 hp]
      exact h
theorem callTargets_at : (cs : List (Callsite × Sym)) → WFCalls cs → ∀ n ∈ callTargets cs,
    ∃ p ∈ cs, ∃ path loc c, targetAt p.2 path loc n = some c
  | [], _, n, hn => by simp [callTargets] at hn
  | (k, s) :: t, hw, n, hn => by
    rw [callTargets, List.mem_append] at hn
    rcases hn with hn | hn
    · exact ⟨(k, s), by simp, symTargets_at s hw.1 n hn⟩
    · obtain ⟨p, hp, h⟩ := callTargets_at t hw.2 n hn
      exact ⟨p, by simp [hp], h⟩
end

theorem mem_callTargets {n : Name} : ∀ {cs : List (Callsite × Sym)} {p : Callsite × Sym}, p ∈ cs → n ∈ symTargets p.2 → n ∈ callTargets cs
  | [], p, h, _ => by cases h
  | (k, s) :: t, p, h, hn => by
    rw [callTargets, List.mem_append]
    rcases List.mem_cons.1 h with rfl | h
    · exact Or.inl hn
    · exact Or.inr (mem_callTargets h hn)

theorem targetAt_mem : ∀ (path : List Callsite) (s : Sym) (loc : Nat) (n : Name) (c : Nat), targetAt s path loc n = some c → n ∈ symTargets s
  | [], .mk d cs, loc, n, c, h => by
    change tgtOf d.pos loc n = some c at h
    unfold tgtOf at h
    rw [symTargets, List.mem_append]
    left
    cases hf : OMap.find? d.pos loc with
    | none => rw [hf] at h; cases h
    | some i =>
      rw [hf, Option.bind_some] at h
      simp only [targetNames, List.mem_flatMap, List.mem_map]
      exact ⟨_, OMap.mem_of_find?_some hf, _, OMap.mem_of_find?_some h, rfl⟩
  | k :: p, .mk d cs, loc, n, c, h => by
    unfold targetAt at h
    simp only [Sym.node?, Sym.calls] at h
    cases hl : lookup cs k with
    | none => rw [hl] at h; cases h
    | some u =>
      rw [hl] at h
      rw [symTargets, List.mem_append]
      exact Or.inr (mem_callTargets (mem_of_lookup hl) (targetAt_mem p u loc n c h))

theorem mergedSym_total (ts : List Top) : (mergedSym ts).data.total = ((ts.map Top.sym).map samples).sum := by
  induction ts using List.reverseRecOn with
  | nil => rfl
  | append_singleton ts t ih => rw [mergedSym_snoc, loadTop_total, ih]; simp

theorem find_topsOf {num den flag : Nat} {xs : List Input} {s : State} (ha : After flag xs s) (n : Name) (g : Name → Nat) :
    OMap.find? (outSyms (Threshold.calculate num den (entriesOf s.map)) s.map g) n =
      if total xs n > 10 ∧ total xs n > grand xs * num / den then some ⟨mergedSym (topsOf xs n), g n⟩ else none := by
  have ht : (mergedSym (topsOf xs n)).data.total = total xs n := by
    rw [mergedSym_total, ← copies_eq]; rfl
  rw [outSyms_find ha.sorted, ha.map n]
  by_cases he : topsOf xs n = []
  · have : total xs n = 0 := by rw [← ht, he]; rfl
    rw [if_pos he, this]
    simp
  · rw [if_neg he, Option.bind_some]
    have := above_iff num den s.map ha.sorted (mergedSym (topsOf xs n)).data.total
    rw [ha.grand, ht] at this
    rw [ht]
    by_cases hc : total xs n > 10 ∧ total xs n > grand xs * num / den
    · rw [if_pos hc, if_pos (this.2 hc)]
    · rw [if_neg hc, if_neg (fun h => hc (this.1 h))]

/-- **C76.** Merging AFDO profiles succeeds, and reading the output gives, for exactly the functions above the threshold, the sums of
the inputs. -/
theorem merge_gcov (pol : Policy) (num den flag : Nat) (hflag : flag < 2 ^ 32) (files : List Name) (fileIdx : Name → Option Nat)
    (hfiles : FilesFit files fileIdx) (xs : List Input) (hx : ∀ x ∈ xs, x.Ok pol) (hs : Small xs) :
    ∃ out R, mergeGcov pol num den files fileIdx flag (xs.map fun x => some x.bytes) = some out ∧
      readFile true pol [] [] out = some R ∧ MergedGcov num den flag xs out R := by
  obtain ⟨s, r1, ha⟩ := read_inputs pol flag xs hx
  have hz := read_sizes pol flag xs hx s r1
  obtain ⟨pf, hfn, hkn, heq⟩ := profile_fits hx hs ha hz num den hfiles
  have hv : s.version < 4294967296 := by
    rw [ha.version]
    cases hl : xs.getLast? with
    | none => simpa using hflag
    | some x => simpa using (hx x (List.mem_of_getLast? hl)).version
  obtain ⟨out, hout⟩ := writer_total s.version (profileOf num den files fileIdx s) (fun q hq => (hfn q hq).wf)
    (fun q hq => ⟨(hfn q hq).name, good_named (hfn q hq).good⟩)
  have hplain : ∀ q ∈ (profileOf num den files fileIdx s).syms, ∀ n ∈ symTargets q.2.sym, originalName pol n = n := by
    intro q hq n hn
    have hw := (hfn q hq).wf
    rw [(hfn q hq).eq] at hn hw
    obtain ⟨path, loc, c, h⟩ := symTargets_at _ hw n hn
    have hsu := mergedSym_sums (topsOf xs q.1) (fun t ht => by
      obtain ⟨x, h1, h2⟩ := topsOf_mem ht
      exact (hx x h1).wf _ h2)
    rw [hsu.target] at h
    obtain ⟨u, hu, h⟩ := List.exists_of_findSome?_eq_some h
    obtain ⟨t, ht, rfl⟩ := List.mem_map.1 (List.mem_reverse.1 hu)
    obtain ⟨x, h1, h2⟩ := topsOf_mem ht
    exact (hx x h1).plain _ h2 n (targetAt_mem path _ loc n c h)
  have hr := readFile_enc s.version hv _ pf true pol (fun n hn => (known_fits hx (hkn n hn)).2) hplain out hout [] []
    OMap.sorted_nil (Or.inl rfl)
  refine ⟨out, _, ?_, hr, ?_⟩
  · unfold mergeGcov
    rw [r1, Option.bind_some]
    exact hout
  obtain ⟨l1, l2⟩ := loadAll_find? _ pf.nodup [] OMap.sorted_nil
  have hfind : ∀ n, OMap.find? (loadAll (profileOf num den files fileIdx s).syms []) n =
      if total xs n > 10 ∧ total xs n > grand xs * num / den then some (loadTop ⟨mergedSym (topsOf xs n), lastTs xs n⟩ Sym.new) else none := by
    intro n
    rw [l2 n, heq, find_topsOf ha n (lastTs xs)]
    by_cases hc : total xs n > 10 ∧ total xs n > grand xs * num / den
    · simp only [if_pos hc, OMap.find?, Option.getD_none]
    · simp only [if_neg hc, OMap.find?]
  refine ⟨?_, ?_, ?_, ?_, ?_, ?_⟩
  · rw [fileVersion_enc (by simpa using hv) hout, ha.version]
  · intro n
    rw [hfind n]
    by_cases hc : total xs n > 10 ∧ total xs n > grand xs * num / den
    · simp [hc]
    · simp only [if_neg hc]; simpa using hc
  · intro n s' h
    rw [hfind n] at h
    split at h
    · next hc =>
      simp only [Option.some.injEq] at h
      subst h
      rw [copies_eq]
      have hf := find_topsOf (num := num) (den := den) ha n (lastTs xs)
      rw [if_pos hc, ← heq] at hf
      have hq := hfn _ (OMap.mem_of_find?_some hf)
      refine sums_reload hq.good hq.wf (mergedSym_sums _ ?_)
      intro t ht
      obtain ⟨x, h1, h2⟩ := topsOf_mem ht
      exact (hx x h1).wf _ h2
    · cases h
  · intro hver n hn
    rw [hfind n] at hn
    split at hn
    · next hc =>
      obtain ⟨t1, t2⟩ := loadTs_find s.version _ pf.nodup [] OMap.sorted_nil
      show OMap.find? (loadTs s.version (profileOf num den files fileIdx s).syms []) n = _
      rw [t2 n, heq, find_topsOf ha n (lastTs xs), if_pos hc, ha.version]
      simp [hver]
    · simp at hn
  · show List.map _ s.ws = _
    rw [ha.ws, List.map_map]
    apply List.map_congr_left
    intro i _
    simp [(wsAt_fits hx i).2]
  · intro S hS
    simp only at hS
    split at hS
    swap
    · cases hS
    simp only [Option.some.injEq] at hS
    obtain ⟨t1, t2, t3, t5, t6⟩ := Summary.summary_totals (Threshold.calculate num den (entriesOf s.map)) s.map Summary.defaultCutoffs
    have e1 : S.total = (Summary.compute (Threshold.calculate num den (entriesOf s.map)) s.map Summary.defaultCutoffs).1.total := by rw [← hS]; rfl
    have e2 : S.numFunctions = (Summary.compute (Threshold.calculate num den (entriesOf s.map)) s.map Summary.defaultCutoffs).1.numFunctions := by
      rw [← hS]; rfl
    have hem : (Summary.emitted (Threshold.calculate num den (entriesOf s.map)) s.map) = (profileOf num den files fileIdx s).syms.map fun q => q.2.sym := by
      rw [heq]
      unfold Summary.emitted outSyms emitted
      rw [List.filter_map, List.map_map]
      simp [Function.comp_def]
    constructor
    · rw [e1, t1, loadAll_sum _ _ OMap.sorted_nil]
      unfold Summary.allCounts
      rw [sum_flatMap, hem, List.map_map]
      simp [Function.comp_def, symCounts_sum]
    · rw [e2, t5, hem, List.length_map]
      have hp : ((profileOf num den files fileIdx s).syms.map Prod.fst).Perm ((loadAll (profileOf num den files fileIdx s).syms []).map Prod.fst) := by
        rw [List.perm_ext_iff_of_nodup pf.nodup (nodup_keys l1)]
        intro n
        have m1 : n ∈ (loadAll (profileOf num den files fileIdx s).syms []).map Prod.fst ↔
            (OMap.find? (loadAll (profileOf num den files fileIdx s).syms []) n).isSome = true := by
          rw [Option.isSome_iff_exists]
          constructor
          · intro h
            obtain ⟨p, hp, rfl⟩ := List.mem_map.1 h
            exact ⟨p.2, (OMap.find?_eq_some_iff l1).2 hp⟩
          · rintro ⟨v, hv⟩
            exact List.mem_map.2 ⟨_, OMap.mem_of_find?_some hv, rfl⟩
        rw [m1, hfind n]
        have m2 := find_topsOf (num := num) (den := den) ha n (lastTs xs)
        rw [← heq] at m2
        by_cases hc : total xs n > 10 ∧ total xs n > grand xs * num / den
        · rw [if_pos hc] at m2 ⊢
          simp only [Option.isSome_some, iff_true]
          exact List.mem_map.2 ⟨_, OMap.mem_of_find?_some m2, rfl⟩
        · rw [if_neg hc]
          simp only [Option.isSome_none, Bool.false_eq_true, iff_false]
          intro hn
          obtain ⟨q, hq, rfl⟩ := List.mem_map.1 hn
          have := hfn q hq
          rw [heq] at hq
          obtain ⟨q1, q2, q3⟩ := mem_outSyms.1 hq
          have h3 := (above_iff num den s.map ha.sorted q.2.sym.data.total).1 q3
          rw [ha.grand, this.eq, mergedSym_total, ← copies_eq] at h3
          exact hc h3
      have := hp.length_eq
      simpa using this

/-- **C76, order.** The order of the inputs does not change which functions are in the output, nor their counts. -/
theorem merge_gcov_order (num den flag flag' : Nat) {xs ys : List Input} (hp : xs.Perm ys) {out out' : List UInt8} {R R' : ReadResult}
    (h : MergedGcov num den flag xs out R) (h' : MergedGcov num den flag' ys out' R') (n : Name) :
    ((OMap.find? R.map n).isSome = true ↔ (OMap.find? R'.map n).isSome = true) ∧
    ∀ s s', OMap.find? R.map n = some s → OMap.find? R'.map n = some s' →
      s.data.head = s'.data.head ∧ ∀ path, totalAt s path = totalAt s' path ∧ ((s.node? path).isSome = true ↔ (s'.node? path).isSome = true) ∧
        ∀ loc, countAt s path loc = countAt s' path loc := by
  have hc : (copies xs n).Perm (copies ys n) := hp.filterMap _
  have ht : total xs n = total ys n := (hc.map _).sum_eq
  have hg : grand xs = grand ys := (hp.map _).sum_eq
  refine ⟨?_, ?_⟩
  · rw [h.functions, h'.functions, ht, hg]
  · intro s s' hs hs'
    have a := h.sums n s hs
    have b := h'.sums n s' hs'
    refine ⟨?_, fun path => ⟨?_, ?_, fun loc => ?_⟩⟩
    · rw [a.head, b.head]; exact (hc.map _).sum_eq
    · rw [a.total, b.total]; exact (hc.map _).sum_eq
    · rw [a.nodes, b.nodes]
      simp only [hc.mem_iff]
    · rw [a.count, b.count]; exact (hc.map _).sum_eq

/-- **C76, a missing input.** Nothing is written if an input cannot be opened. -/
theorem merge_gcov_missing (pol : Policy) (num den flag : Nat) (files : List Name) (fileIdx : Name → Option Nat) (inputs : List (Option (List UInt8)))
    (h : none ∈ inputs) : mergeGcov pol num den files fileIdx flag inputs = none := by
  have key : ∀ (l : List (Option (List UInt8))) (s : State), none ∈ l → l.foldlM (readInput pol) s = none := by
    intro l
    induction l with
    | nil => intro s h; cases h
    | cons x l ih =>
      intro s h
      rw [List.foldlM_cons]
      rcases List.mem_cons.1 h with rfl | h
      · rfl
      · cases readInput pol s x with
        | none => rfl
        | some s' => exact ih s' h
  unfold mergeGcov
  rw [key inputs _ h]
  rfl

/-! ## A case, and what merging loses -/

/-- The bytes of the sample profile. -/
def sampleBytes (v : Nat) : List UInt8 := (writeFile v sampleProfile).getD []

theorem sample_ok (v : Nat) (hv : v < 2 ^ 32) (hs : (writeFile v sampleProfile).isSome = true) : Input.Ok .all ⟨v, sampleProfile, sampleBytes v⟩ where
  version := hv
  fits := sampleProfile_fits
  wf := sampleSyms_wf
  fix := by
    have : ∀ n ∈ profileNames sampleSyms, fixName n = n := by decide +kernel
    exact this
  plain := by
    intro q hq n hn
    have : ∀ l ∈ sampleSyms.map (fun q => symTargets q.2.sym), ∀ n ∈ l, originalName .all n = n := by decide +kernel
    exact this _ (List.mem_map.2 ⟨q, hq, rfl⟩) n hn
  written := by
    obtain ⟨b, hb⟩ := Option.isSome_iff_exists.1 hs
    simp [sampleBytes, hb]

/-- Two copies of the sample profile. -/
def twoSamples (v w : Nat) : List Input := [⟨v, sampleProfile, sampleBytes v⟩, ⟨w, sampleProfile, sampleBytes w⟩]

/-- The case meets the hypotheses of `merge_gcov`. -/
example : ∃ out R, mergeGcov .all 0 1 [] (fun _ => none) 2 [some (sampleBytes 2), some (sampleBytes 3)] = some out ∧
    readFile true .all [] [] out = some R ∧ MergedGcov 0 1 2 (twoSamples 2 3) out R := by
  refine merge_gcov .all 0 1 2 (by decide) [] (fun _ => none) ⟨by simp, by decide, by simp⟩ (twoSamples 2 3) ?_ ⟨?_, ?_, ?_, ?_⟩
  · intro x hx
    simp only [twoSamples, List.mem_cons, List.not_mem_nil, or_false] at hx
    rcases hx with rfl | rfl
    · exact sample_ok 2 (by decide) (by decide +kernel)
    · exact sample_ok 3 (by decide) (by decide +kernel)
  · decide +kernel
  · decide +kernel
  · decide +kernel
  · intro i
    have : ∀ i : Nat, ((((sampleProfile.workingSet[i]?)).map Prod.snd).getD 0) ≤ 7 := by
      intro i
      simp only [sampleProfile, List.getElem?_replicate]
      split <;> simp
    have := this i
    simp only [twoSamples, List.map_cons, List.map_nil, List.sum_cons, List.sum_nil]
    omega

/-- A profile with one function with 6 samples. -/
def coldProfile : Profile :=
  ⟨[([97], ⟨.mk ⟨6, 3, [(4294967296, ⟨6, 1, []⟩)]⟩ [], 0⟩)], ⟨6, 6, 3, 1, 1, []⟩, [], fun _ => none, List.replicate 128 (0, 0)⟩

/-- The number of functions of the output. -/
def numFunctions (o : Option (List UInt8)) : Option Nat := o.bind fun b => (readFile true .all [] [] b).map fun R => R.map.length

/-- **C76, violated: merging in stages.** A function whose samples are spread over the inputs is kept by one merge, and lost if the inputs
are merged one by one. -/
theorem staged_merge_loses :
    numFunctions (mergeGcov .all 0 1 [] (fun _ => none) 2 [writeFile 2 coldProfile, writeFile 2 coldProfile]) = some 1 ∧
    numFunctions (mergeGcov .all 0 1 [] (fun _ => none) 2
      [mergeGcov .all 0 1 [] (fun _ => none) 2 [writeFile 2 coldProfile], mergeGcov .all 0 1 [] (fun _ => none) 2 [writeFile 2 coldProfile]]) = some 0 := by
  constructor <;> decide +kernel

/-- **C76, violated: targets.** The counts of indirect-call targets are those of the last input, although the count of the call is the sum. -/
theorem merge_targets_violated :
    ((mergeGcov .all 0 1 [] (fun _ => none) 2 [some (sampleBytes 2), some (sampleBytes 2)]).bind fun b => (readFile true .all [] [] b).bind fun R =>
      (OMap.find? R.map [97]).map fun s => (countAt s [] 8589934592, targetAt s [] 8589934592 [99])) = some (14, some 4) := by
  decide +kernel

/-- **C76, violated: timestamps.** The timestamps and the summary are lost if the last input is an older file; `--gcov_version=3` does not
help. -/
theorem merge_version_violated :
    ((mergeGcov .all 0 1 [] (fun _ => none) 3 [some (sampleBytes 3), some (sampleBytes 2)]).bind fun b => (readFile true .all [] [] b).map fun R =>
      (fileVersion b, OMap.find? R.ts [97], R.summary.isSome)) = some (some 2, some 0, false) ∧
    ((mergeGcov .all 0 1 [] (fun _ => none) 3 [some (sampleBytes 2), some (sampleBytes 3)]).bind fun b => (readFile true .all [] [] b).map fun R =>
      (fileVersion b, OMap.find? R.ts [97], R.summary.isSome)) = some (some 3, some 77, true) := by
  constructor <;> decide +kernel

end Verif.Merger
