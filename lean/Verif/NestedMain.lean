import Verif.NestedProps

/-! # The result of `FlattenNestedInlineCallsites` -/
namespace Verif.SymbolMap
open Verif.Compute

/-- The sum of a number over all inline instances of the function `f` in a profile. -/
def instanceSum (v : Data → Nat) (m : SymMap) (f : Name) : Nat :=
  (m.map fun x => (x.2.nodes.map fun y => if nameOf x.1 y.1 = f then v y.2 else 0).sum).sum

/-- Instructions attributed to a location of `f`, over all inline instances of `f`. -/
def instSum (m : SymMap) (f : Name) (loc : Nat) : Nat := instanceSum (fun d => d.pos.instAt loc) m f
/-- Count of a location of `f`, over all inline instances of `f`. -/
def countSum (m : SymMap) (f : Name) (loc : Nat) : Nat := instanceSum (fun d => d.pos.countAt loc) m f
/-- Count of a call target at a location of `f`, over all inline instances of `f`. -/
def targetSum (m : SymMap) (f : Name) (loc : Nat) (t : Name) : Nat := instanceSum (fun d => d.pos.targetAt loc t) m f

theorem rel_eq : Rel (fun a b : Nat => a = b) := ⟨fun _ => rfl, fun h1 h2 => h1.trans h2, fun c h => by rw [h], fun c h => Nat.add_right_cancel h⟩
theorem rel_le : Rel (fun a b : Nat => a ≤ b) := ⟨fun _ => le_rfl, fun h1 h2 => le_trans h1 h2, fun c h => Nat.add_le_add_right h c, fun c h => Nat.le_of_add_le_add_right h⟩

theorem wt_of {rel : Nat → Nat → Prop} (hr : Rel rel) {v : Data → Nat} (f : Name) (h0 : v Data.zero = 0)
    (hadd : ∀ a b : Data, OMap.Sorted a.pos → a.pos.TargetsOk → OMap.Sorted b.pos → b.pos.TargetsOk → v (a.add b) = v a + v b)
    (hpos : ∀ a b : Data, a.pos = b.pos → v a = v b) (hflat : ∀ k c d, OMap.Sorted d.pos → d.pos.TargetsOk → rel (v d) (v (flattenInto k c d))) :
    Wt rel (fun n d => if n = f then v d else 0) := by
  refine ⟨fun n => ?_, fun n a b h1 h2 h3 h4 => ?_, fun n a b h => ?_, fun n k c d h1 h2 => ?_⟩
  · beta_reduce; split
    · exact h0
    · rfl
  · beta_reduce; split
    · exact hadd a b h1 h2 h3 h4
    · rfl
  · beta_reduce; split
    · exact hpos a b h
    · rfl
  · beta_reduce; split
    · exact hflat k c d h1 h2
    · exact hr.refl _

/-- What the flattened call site leaves at the caller: its head count is added to the call target at the location, and the count of the location is
raised to the count of that target; the total loses nothing here and gains what the count of the location gains, modulo 2^64. -/
theorem flatten_into (k : Callsite) (c : Sym) (d : Data) (h1 : OMap.Sorted d.pos) (h2 : d.pos.TargetsOk) :
    (flattenInto k c d).head = d.head ∧ (flattenInto k c d).total = (d.total + ((flattenInto k c d).pos.countAt k.1 - d.pos.countAt k.1)) % 2 ^ 64 ∧
    (∀ o, (flattenInto k c d).pos.instAt o = d.pos.instAt o) ∧
    (∀ o t, (flattenInto k c d).pos.targetAt o t = d.pos.targetAt o t + if (o, t) = k then c.data.head else 0) ∧
    ∀ o, (flattenInto k c d).pos.countAt o = if o = k.1 then max (d.pos.countAt o) (d.pos.targetAt o k.2 + c.data.head) else d.pos.countAt o := by
  have s1 : OMap.Sorted (flattenCallsite d.pos (k, c)) := PosMap.sorted_modify h1 _ _
  have f1 : ∀ o, OMap.find? (flattenCallsite d.pos (k, c)) o = _ := fun o => PosMap.find?_modify h1 k.1 _ o
  have f2 : ∀ o, OMap.find? (flattenInto k c d).pos o = _ := fun o => PosMap.find?_modify s1 k.1 (fun p => { p with count := max p.count (OMap.get0 p.targets k.2) }) o
  have ht := PosMap.targetsOk_getD h2 k.1
  refine ⟨rfl, rfl, fun o => ?_, fun o t => ?_, fun o => ?_⟩
  · unfold PosMap.instAt
    rw [f2]
    by_cases h : o = k.1
    · subst h; simp [f1]
    · rw [if_neg h, f1, if_neg h]
  · unfold PosMap.targetAt
    rw [f2]
    by_cases h : o = k.1
    · subst h
      rw [if_pos rfl, f1, if_pos rfl]
      simp only [Option.getD_some, OMap.get0]
      rw [OMap.find?_add ht]
      by_cases e : t = k.2
      · subst e; simp; rfl
      · have : ¬ (k.1, t) = k := fun hh => e (congrArg Prod.snd hh)
        simp [e, this]
    · have : ¬ (o, t) = k := fun hh => h (congrArg Prod.fst hh)
      rw [if_neg h, f1, if_neg h, if_neg this]; rfl
  · unfold PosMap.countAt PosMap.targetAt
    rw [f2]
    by_cases h : o = k.1
    · subst h
      rw [if_pos rfl, if_pos rfl, f1, if_pos rfl]
      simp only [Option.getD_some, OMap.get0]
      rw [OMap.find?_add ht]
      simp
      rfl
    · rw [if_neg h, f1, if_neg h, if_neg h]

theorem wt_inst (f : Name) (loc : Nat) : Wt (fun a b : Nat => a = b) (fun n d => if n = f then d.pos.instAt loc else 0) :=
  wt_of rel_eq f rfl (fun a b h1 h2 h3 h4 => (PosMap.addAll_obs h1 h2 h3 h4 loc).2.1) (fun a b h => by rw [h]) fun k c d h1 h2 => ((flatten_into k c d h1 h2).2.2.1 loc).symm

theorem wt_count (f : Name) (loc : Nat) : Wt (fun a b : Nat => a ≤ b) (fun n d => if n = f then d.pos.countAt loc else 0) :=
  wt_of rel_le f rfl (fun a b h1 h2 h3 h4 => (PosMap.addAll_obs h1 h2 h3 h4 loc).1) (fun a b h => by rw [h]) fun k c d h1 h2 => by
    rw [(flatten_into k c d h1 h2).2.2.2.2 loc]
    split <;> omega

theorem wt_target (f : Name) (loc : Nat) (t : Name) : Wt (fun a b : Nat => a ≤ b) (fun n d => if n = f then d.pos.targetAt loc t else 0) :=
  wt_of rel_le f rfl (fun a b h1 h2 h3 h4 => (PosMap.addAll_obs h1 h2 h3 h4 loc).2.2.1 t) (fun a b h => by rw [h]) fun k c d h1 h2 => by
    rw [(flatten_into k c d h1 h2).2.2.2.1 loc t]
    omega

theorem tot_instanceSum (v : Data → Nat) (m : SymMap) (f : Name) : tot (fun n d => if n = f then v d else 0) m = instanceSum v m f := rfl

/-- C55: the result of the merger's limit on inline nesting. For every profile and limit the computation ends, and with a positive limit `mx` no inline stack of the
result has `mx` or more inlined calls; no function is lost, and every inline stack of the result is the inner part of an inline stack of the input; the
instructions attributed to each location of each function, added over all its inline instances, are the same as before, and the counts and the counts of the call
targets added over all inline instances do not decrease. -/
theorem flatten_nested {m : SymMap} (hm : m.WF) (mx : Int) :
    ∃ m' n F, (∀ fuel, F ≤ fuel → flattenNested fuel mx m = some (m', n)) ∧ m'.WF ∧
      (mx ≤ 0 → m' = m ∧ n = 0) ∧
      (0 < mx → ∀ g p, (view m' (g, p)).isSome = true → (p.length : Int) < mx) ∧
      (∀ g, (OMap.find? m g).isSome = true → (OMap.find? m' g).isSome = true) ∧
      (∀ x, (view m' x).isSome = true → ∃ y, (view m y).isSome = true ∧ stack x <:+ stack y) ∧
      (∀ f loc, instSum m' f loc = instSum m f loc) ∧
      (∀ f loc, countSum m f loc ≤ countSum m' f loc) ∧
      ∀ f loc t, targetSum m f loc t ≤ targetSum m' f loc t := by
  by_cases hmx : mx > 0
  · obtain ⟨H, hH1, hH2⟩ := exists_bound (allPlaces m) mx.toNat
    have hb : ∀ x, (view m x).isSome = true → x.2.length ≤ H := fun x hx => hH2 x ((mem_allPlaces hm x).2 hx)
    set N := (allPlaces m).map fun x => nameOf x.1 x.2 with hN
    have hNm : ∀ x, (view m x).isSome = true → nameOf x.1 x.2 ∈ N := fun x hx => List.mem_map.2 ⟨x, (mem_allPlaces hm x).2 hx, rfl⟩
    set F := H + 1 + N.length with hF
    have hnext : ∀ x, m.head? = some x → (OMap.find? m x.1).isSome = true ∧ (N.filter fun y => decide (x.1 ≤ y)).length ≤ F := fun x hx => by
      refine ⟨by rw [OMap.find?_some_of_mem hm.1 (List.mem_of_mem_head? hx)]; rfl, ?_⟩
      have := List.length_filter_le (fun y => decide (x.1 ≤ y)) N
      omega
    have hlim : ∀ y, (view m y).isSome = true → (∀ x, m.head? = some x → y.1 < x.1) → y.2.length + 1 ≤ mx.toNat := fun y hy hyx => by
      exfalso
      obtain ⟨s, hs⟩ := Option.isSome_iff_exists.1 (view_fun hy)
      have hmem := OMap.mem_of_find?_some hs
      cases m with
      | nil => cases hmem
      | cons x t =>
        have hlt := hyx x rfl
        rcases List.mem_cons.1 hmem with h | h
        · rw [← h] at hlt
          exact absurd hlt (lt_irrefl _)
        · exact absurd hlt (not_lt.2 (le_of_lt ((List.pairwise_cons.1 hm.1).1 _ h)))
    have run := fun {rel : Nat → Nat → Prop} (hr : Rel rel) {w : Name → Data → Nat} (hw : Wt rel w) =>
      nestedFrom_ok hr hw (mx := mx.toNat) (H := H) (rf := F) (by omega) hH1 (by omega) N F m.head? m 0 hm hb hNm hnext hlim
    obtain ⟨r, h1, h2, h3, _, h5, h6⟩ := run rel_eq (wt_inst default 0)
    have same := fun {rel : Nat → Nat → Prop} (hr : Rel rel) {w : Name → Data → Nat} (hw : Wt rel w) => show rel (tot w m) (tot w r.1) from by
      obtain ⟨r', h1', _, _, h4', _⟩ := run hr hw
      rw [h1] at h1'
      injection h1' with h1'
      rw [h1']; exact h4'
    refine ⟨r.1, r.2, F, fun fuel hf => ?_, h2, fun h => by omega, fun _ g p hp => ?_, h5, h6, fun f loc => ?_, fun f loc => ?_, fun f loc t => ?_⟩
    · unfold flattenNested
      rw [if_pos hmx]
      exact nestedFrom_mono hf hf h1
    · have := h3 _ hp
      simp only at this
      omega
    · exact (same rel_eq (wt_inst f loc)).symm
    · exact same rel_le (wt_count f loc)
    · exact same rel_le (wt_target f loc t)
  · refine ⟨m, 0, 0, fun fuel _ => ?_, hm, fun _ => ⟨rfl, rfl⟩, fun h => absurd h hmx, fun g h => h, fun x hx => ⟨x, hx, List.suffix_rfl⟩, fun f loc => rfl, fun f loc => le_rfl, fun f loc t => le_rfl⟩
    unfold flattenNested
    rw [if_neg hmx]

/-! ### A profile within the limit is not changed -/

theorem wsub_self (a : Nat) : wsub a a = 0 := by
  unfold wsub
  omega

theorem foldlM_fix {A B : Type} {f : A → B → Option A} {a : A} : ∀ l : List B, (∀ b ∈ l, f a b = some a) → l.foldlM f a = some a
  | [], _ => rfl
  | b :: l, h => by
    rw [List.foldlM_cons, h b (by simp)]
    exact foldlM_fix l fun c hc => h c (by simp [hc])

theorem nested_within {mx H : Nat} {m : SymMap} (hm : m.WF) (hl : ∀ x, (view m x).isSome = true → x.2.length + 1 ≤ mx) (ht : ∀ x d, view m x = some d → d.total < 2 ^ 64)
    (hb : ∀ x, (view m x).isSome = true → x.2.length ≤ H) :
    ∀ (fuel depth : Nat) (g : Name) (q : List Callsite), depth = q.length + 1 → (view m (g, q)).isSome = true → H + 1 ≤ fuel + q.length → nested mx fuel depth g q m = some (m, 0)
  | 0, depth, g, q, hd, hv, hf => by
    have := hb _ hv
    simp only at this
    omega
  | fuel + 1, depth, g, q, hd, hv, hf => by
    obtain ⟨s, hs⟩ := Option.isSome_iff_exists.1 ((subAt_isSome m g q).trans hv)
    have hsd : view m (g, q) = some s.data := by
      have := view_sub hs []
      rw [List.append_nil, node_root] at this
      exact this.symm
    rw [nested, hs, Option.bind_some]
    by_cases hdm : depth = mx
    · have hc : s.calls = [] := by
        rw [List.eq_nil_iff_forall_not_mem]
        intro x hx
        have := hl _ ((calls_isSome hs x.1).2 (List.mem_map_of_mem hx))
        simp only [List.length_append, List.length_cons, List.length_nil] at this
        omega
      have hid : (modAt m g q fun s => .mk s.data []) = m := modAt_id hm fun c hc' => by
        rw [hs] at hc'
        injection hc' with hc'
        subst hc'
        obtain ⟨d, cs⟩ := s
        simp only [Sym.calls] at hc
        subst hc
        rfl
      rw [if_pos hdm, hc, List.map_nil, List.foldlM_nil]
      show (some (modAt m g q fun s => .mk s.data [])).bind _ = _
      rw [Option.bind_some, hid, hs, Option.map_some, wsub_self]
    · rw [if_neg hdm, foldlM_fix, Option.bind_some, hs, Option.map_some, wsub_self]
      intro k hk
      rw [nested_within hm hl ht hb fuel (depth + 1) g (q ++ [k]) (by simp; omega) ((calls_isSome hs k).2 hk) (by simp; omega), Option.map_some, modAt_id hm]
      intro c hc
      rw [hs] at hc
      injection hc with hc
      subst hc
      obtain ⟨d, cs⟩ := s
      have := ht _ _ hsd
      simp only [Sym.data] at this
      simp only [onData, Nat.add_zero, Nat.mod_eq_of_lt this]

/-- C55: a profile whose inline stacks are all within the limit is not changed, and no function is reported as flattened. -/
theorem flatten_nested_within {m : SymMap} (hm : m.WF) {mx : Int} (hl : ∀ g p, (view m (g, p)).isSome = true → (p.length : Int) < mx)
    (ht : ∀ x d, view m x = some d → d.total < 2 ^ 64) : ∃ F, ∀ fuel, F ≤ fuel → flattenNested fuel mx m = some (m, 0) := by
  by_cases hmx : mx > 0
  · obtain ⟨H, hH1, hH2⟩ := exists_bound (allPlaces m) mx.toNat
    have hb : ∀ x, (view m x).isSome = true → x.2.length ≤ H := fun x hx => hH2 x ((mem_allPlaces hm x).2 hx)
    have hl' : ∀ x, (view m x).isSome = true → x.2.length + 1 ≤ mx.toNat := fun x hx => by
      have := hl x.1 x.2 hx
      omega
    have loop : ∀ (fuel : Nat) (next : Option (Name × Sym)) (rf : Nat), H + 1 ≤ rf → (∀ x, next = some x → x ∈ m ∧ (m.filter fun y => decide (x.1 ≤ y.1)).length ≤ fuel) →
        nestedFrom mx.toNat rf fuel next m 0 = some (m, 0) := by
      intro fuel
      induction fuel with
      | zero =>
        intro next rf hrf hn
        cases next with
        | none => rfl
        | some x =>
          obtain ⟨h1, h2⟩ := hn x rfl
          have : x ∈ m.filter fun y => decide (x.1 ≤ y.1) := by rw [List.mem_filter]; exact ⟨h1, by simp⟩
          have := List.length_pos_of_mem this
          omega
      | succ fuel ih =>
        intro next rf hrf hn
        cases next with
        | none => rfl
        | some x =>
          obtain ⟨h1, h2⟩ := hn x rfl
          have hx : (view m (x.1, [])).isSome = true := by rw [view_root, OMap.find?_some_of_mem hm.1 h1]; rfl
          rw [nestedFrom, nested_within hm hl' ht hb rf 1 x.1 [] rfl hx (by simpa using hrf), Option.bind_some]
          refine ih _ rf hrf fun y hy => ?_
          obtain ⟨hy1, hy2⟩ := OMap.upper?_mem hy
          refine ⟨hy1, ?_⟩
          have hlt : (m.filter fun z => decide (y.1 ≤ z.1)).length < (m.filter fun z => decide (x.1 ≤ z.1)).length := by
            have hsub : (m.filter fun z => decide (y.1 ≤ z.1)) = (m.filter fun z => decide (x.1 ≤ z.1)).filter fun z => decide (y.1 ≤ z.1) := by
              rw [List.filter_filter]
              refine List.filter_congr fun z _ => ?_
              by_cases hz : y.1 ≤ z.1
              · simp [hz, le_of_lt (lt_of_lt_of_le hy2 hz)]
              · simp [hz]
            rw [hsub]
            exact List.length_filter_lt_length_iff_exists.2 ⟨x, List.mem_filter.2 ⟨h1, by simp⟩, by simpa using hy2⟩
          omega
    refine ⟨H + 1 + m.length, fun fuel hf => ?_⟩
    unfold flattenNested
    rw [if_pos hmx]
    refine loop fuel m.head? fuel (by omega) fun x hx => ⟨List.mem_of_mem_head? hx, ?_⟩
    have := List.length_filter_le (fun y : Name × Sym => decide (x.1 ≤ y.1)) m
    omega
  · refine ⟨0, fun fuel _ => ?_⟩
    unfold flattenNested
    rw [if_neg hmx]

end Verif.SymbolMap
