import Verif.Hybrid
import Verif.FlattenProps
import Verif.Attribution

namespace Verif.SymbolMap

/-! ### Specification -/

/-- Where an inline instance or function of the source goes: functions stay functions; an instance
inlined with a total above the threshold stays inlined where its caller went; any other becomes (part of)
a function of its own. -/
inductive Placed (th : Nat) (src : SymMap) : Name → List Callsite → Sym → Prop
  | function {f s} : (f, s) ∈ src → Placed th src f [] s
  | hot {f p s k c} : Placed th src f p s → (k, c) ∈ s.calls → th < c.data.total → Placed th src f (p ++ [k]) c
  | cold {f p s k c} : Placed th src f p s → (k, c) ∈ s.calls → c.data.total ≤ th → Placed th src k.2 [] c

mutual
/-- All instances in a symbol that goes to `f`, `p`, with the place they go to. -/
def placesIn (th : Nat) (f : Name) (p : List Callsite) : Sym → List ((Name × List Callsite) × Sym)
  | .mk d cs => ((f, p), .mk d cs) :: placesCalls th f p cs
def placesCalls (th : Nat) (f : Name) (p : List Callsite) : List (Callsite × Sym) → List ((Name × List Callsite) × Sym)
  | [] => []
  | (k, c) :: t => (if c.data.total ≤ th then placesIn th k.2 [] c else placesIn th f (p ++ [k]) c) ++ placesCalls th f p t
end

/-- All functions and instances of the source with the place they go to (`mem_places`: those of `Placed`). -/
def places (th : Nat) (src : SymMap) : List ((Name × List Callsite) × Sym) := src.flatMap fun x => placesIn th x.1 [] x.2

/-- The sources of one place. -/
def sources (th : Nat) (src : SymMap) (f : Name) (p : List Callsite) : List Sym :=
  ((places th src).filter fun x => x.1 = (f, p)).map Prod.snd

/-- The cold calls of an instance. -/
def Sym.coldCalls (th : Nat) (s : Sym) : List (Callsite × Sym) := s.calls.filter fun x => decide (x.2.data.total ≤ th)

/-- An instance's own count at a location, raised to the entry counts of the cold calls there. -/
def hybridCount (th : Nat) (s : Sym) (o : Nat) : Nat :=
  (((s.coldCalls th).filter fun x => x.1.1 = o).map fun x => x.2.data.head).foldl max (s.data.pos.countAt o)

/-- An instance's own count of a call target, plus the entry counts of the cold calls to it. -/
def hybridTarget (th : Nat) (s : Sym) (o : Nat) (t : Name) : Nat :=
  s.data.pos.targetAt o t + (((s.coldCalls th).filter fun x => x.1 = (o, t)).map fun x => x.2.data.head).sum

/-! ### Updates -/

/-- Add data at a place. -/
def addAt (m : SymMap) (x : (Name × List Callsite) × Data) : SymMap := updateAt m x.1.1 x.1.2 fun t => t.add x.2

theorem updateAt_WF {m : SymMap} (hm : m.WF) (f : Name) (p : List Callsite) (x : Data) :
    (addAt m ((f, p), x)).WF := by
  refine ⟨OMap.Sorted.upsert hm.1 _ _, ?_⟩
  intro q hq
  have h1 := OMap.find?_some_of_mem (OMap.Sorted.upsert hm.1 _ _) hq
  rw [OMap.find?_upsert hm.1] at h1
  have hw : ((OMap.find? m f).getD Sym.new).WF := hm.get f
  split at h1
  · injection h1 with h1
    rw [← h1]
    exact addAlong_WF _ _ (fun d h1 h2 => ⟨PosMap.sorted_addAll h1 _, PosMap.targetsOk_addAll h1 h2 _⟩) _ _ hw
  · exact hm.2 _ (OMap.mem_of_find?_some h1)

theorem get_addAt {m : SymMap} (hm : m.WF) (f : Name) (p : List Callsite) (x : Data) (g : Name) :
    (addAt m ((f, p), x)).get g = if g = f then (m.get f).addAlong 0 (fun t => t.add x) p else m.get g := by
  unfold SymMap.get addAt updateAt
  rw [OMap.find?_upsert hm.1]
  split <;> simp_all

theorem nodeD_addAt {m : SymMap} (hm : m.WF) (f : Name) (p : List Callsite) (x : Data) (g : Name) (q : List Callsite) :
    ((addAt m ((f, p), x)).get g).nodeD q = if (f, p) = (g, q) then ((m.get g).nodeD q).add x else (m.get g).nodeD q := by
  rw [get_addAt hm]
  by_cases hg : g = f
  · subst hg
    rw [if_pos rfl]
    conv_lhs => unfold Sym.nodeD
    rw [addAlong_node?]
    by_cases hp : q = p
    · subst hp
      rw [if_pos rfl, if_pos rfl]
      rfl
    · have hne : ¬ (g, p) = (g, q) := by
        intro e; injection e with _ e; exact hp e.symm
      rw [if_neg hp, if_neg hne]
      split
      · rfl
      · rfl
  · rw [if_neg hg, if_neg (by simp [Ne.symm hg])]

/-- What holds at a place after additions `L` to an empty map. -/
structure HybridSum (L : List ((Name × List Callsite) × Data)) (m : SymMap) : Prop where
  wf : m.WF
  node : ∀ f p, (∃ s, OMap.find? m f = some s ∧ (s.node? p).isSome = true) ↔ ∃ x ∈ L, x.1.1 = f ∧ p <+: x.1.2
  total : ∀ f p, ((m.get f).nodeD p).total = ((L.filter fun x => x.1 = (f, p)).map fun x => x.2.total).sum
  head : ∀ f p, ((m.get f).nodeD p).head = ((L.filter fun x => x.1 = (f, p)).map fun x => x.2.head).sum
  count : ∀ f p o, ((m.get f).nodeD p).pos.countAt o = ((L.filter fun x => x.1 = (f, p)).map fun x => x.2.pos.countAt o).sum
  inst : ∀ f p o, ((m.get f).nodeD p).pos.instAt o = ((L.filter fun x => x.1 = (f, p)).map fun x => x.2.pos.instAt o).sum
  target : ∀ f p o t, ((m.get f).nodeD p).pos.targetAt o t = ((L.filter fun x => x.1 = (f, p)).map fun x => x.2.pos.targetAt o t).sum

theorem new_obs (p : List Callsite) : Sym.new.nodeD p = Data.zero := by
  unfold Sym.nodeD
  rw [Sym.new_node?]
  split <;> rfl

theorem HybridSum.nil : HybridSum [] [] := by
  refine ⟨⟨OMap.sorted_nil, fun p hp => by simp at hp⟩, by simp [OMap.find?], ?_, ?_, ?_, ?_, ?_⟩ <;> intros <;>
    simp [SymMap.get, OMap.find?, new_obs, Data.zero,
      PosMap.countAt, PosMap.instAt, PosMap.targetAt, OMap.get0, PInfo.zero]

theorem HybridSum.add {L : List ((Name × List Callsite) × Data)} {m : SymMap} (h : HybridSum L m) (x : (Name × List Callsite) × Data)
    (hs : OMap.Sorted x.2.pos) (ht : x.2.pos.TargetsOk) : HybridSum (L ++ [x]) (addAt m x) := by
  obtain ⟨⟨f0, p0⟩, d⟩ := x
  have key : ∀ (f : Name) (p : List Callsite) (v : Data → Nat), (∀ t, OMap.Sorted t.pos → t.pos.TargetsOk → v (t.add d) = v t + v d) →
      v ((m.get f).nodeD p) = ((L.filter fun x => x.1 = (f, p)).map fun x => v x.2).sum →
      v (((addAt m ((f0, p0), d)).get f).nodeD p) = (((L ++ [((f0, p0), d)]).filter fun x => x.1 = (f, p)).map fun x => v x.2).sum := by
    intro f p v hv hi
    rw [nodeD_addAt h.wf, List.filter_append, List.map_append, List.sum_append, ← hi]
    have hw := (h.wf.get f).node p
    by_cases hp : (f0, p0) = (f, p)
    · rw [if_pos hp, List.filter_cons_of_pos (by simpa using hp), hv ((m.get f).nodeD p) hw.1 hw.2]
      simp
    · rw [if_neg hp, List.filter_cons_of_neg (by simpa using hp)]
      simp
  refine ⟨updateAt_WF h.wf _ _ _, ?_, ?_, ?_, ?_, ?_, ?_⟩
  · intro f p
    have hget : OMap.find? (addAt m ((f0, p0), d)) f = if f = f0 then some ((m.get f0).addAlong 0 (fun t => t.add d) p0) else OMap.find? m f := by
      unfold addAt updateAt
      rw [OMap.find?_upsert h.wf.1]
      split <;> simp_all [SymMap.get]
    rw [hget]
    by_cases hf : f = f0
    · subst hf
      simp only [if_true, Option.some.injEq]
      constructor
      · rintro ⟨s, rfl, hn⟩
        rw [addAlong_node?] at hn
        by_cases hp : p <+: p0
        · exact ⟨_, List.mem_append_right _ (List.mem_singleton.2 rfl), rfl, hp⟩
        · rw [if_neg (fun e : p = p0 => hp (e ▸ List.prefix_refl _)), if_neg hp] at hn
          have : ∃ s, OMap.find? m f = some s ∧ (s.node? p).isSome = true := by
            unfold SymMap.get at hn
            cases hm : OMap.find? m f with
            | none =>
              rw [hm] at hn
              simp only [Option.getD_none, Sym.new_node?] at hn
              split at hn
              · rename_i e; exact absurd (by rw [e]; exact List.nil_prefix) hp
              · simp at hn
            | some s => rw [hm] at hn; exact ⟨s, rfl, hn⟩
          obtain ⟨x, hx, h1, h2⟩ := (h.node f p).1 this
          exact ⟨x, List.mem_append_left _ hx, h1, h2⟩
      · rintro ⟨x, hx, h1, h2⟩
        refine ⟨_, rfl, ?_⟩
        rw [addAlong_node?]
        by_cases hp : p <+: p0
        · split <;> simp [hp]
        · rw [if_neg (fun e : p = p0 => hp (e ▸ List.prefix_refl _)), if_neg hp]
          rcases List.mem_append.1 hx with hx | hx
          · obtain ⟨s, e1, e2⟩ := (h.node f p).2 ⟨x, hx, h1, h2⟩
            unfold SymMap.get
            rw [e1]; exact e2
          · rw [List.mem_singleton.1 hx] at h2
            exact absurd h2 hp
    · rw [if_neg hf, h.node]
      constructor
      · rintro ⟨x, hx, h1, h2⟩; exact ⟨x, List.mem_append_left _ hx, h1, h2⟩
      · rintro ⟨x, hx, h1, h2⟩
        rcases List.mem_append.1 hx with hx | hx
        · exact ⟨x, hx, h1, h2⟩
        · rw [List.mem_singleton.1 hx] at h1
          exact absurd h1.symm hf
  · intro f p; exact key f p (fun t => t.total) (fun _ _ _ => rfl) (h.total f p)
  · intro f p; exact key f p (fun t => t.head) (fun _ _ _ => rfl) (h.head f p)
  · intro f p o; exact key f p (fun t => t.pos.countAt o) (fun t h1 h2 => (PosMap.addAll_obs h1 h2 hs ht o).1) (h.count f p o)
  · intro f p o; exact key f p (fun t => t.pos.instAt o) (fun t h1 h2 => (PosMap.addAll_obs h1 h2 hs ht o).2.1) (h.inst f p o)
  · intro f p o n; exact key f p (fun t => t.pos.targetAt o n) (fun t h1 h2 => (PosMap.addAll_obs h1 h2 hs ht o).2.2.1 n) (h.target f p o n)

theorem HybridSum.adds (L : List ((Name × List Callsite) × Data)) (hL : ∀ x ∈ L, OMap.Sorted x.2.pos ∧ x.2.pos.TargetsOk) :
    HybridSum L (L.foldl addAt []) := by
  induction L using List.reverseRecOn with
  | nil => exact HybridSum.nil
  | append_singleton L x ih =>
    rw [List.foldl_append]
    have hx := hL x (by simp)
    exact HybridSum.add (ih fun y hy => hL y (by simp [hy])) x hx.1 hx.2

/-! ### The additions made -/

/-- What is added for one instance when it is finished. -/
def hybridPos (th : Nat) (s : Sym) : PosMap := (s.coldCalls th).foldl flattenCallsite s.data.pos

mutual
/-- The additions made for one symbol. -/
def addsIn (th : Nat) (f : Name) (p : List Callsite) : Sym → List ((Name × List Callsite) × Data)
  | .mk d cs => ((f, p), ⟨d.total, d.head, []⟩) :: (addsCalls th f p cs ++ [((f, p), ⟨0, 0, hybridPos th (.mk d cs)⟩)])
def addsCalls (th : Nat) (f : Name) (p : List Callsite) : List (Callsite × Sym) → List ((Name × List Callsite) × Data)
  | [] => []
  | (k, c) :: t => (if c.data.total ≤ th then addsIn th k.2 [] c else addsIn th f (p ++ [k]) c) ++ addsCalls th f p t
end

theorem inlinedCalls_eq' (cs : List (Callsite × Sym)) (d : Data) : (Sym.mk d cs).inlined = inlinedCalls cs := by rw [Sym.inlined]

mutual
theorem populate_eq (th : Nat) (r : HybridOut) (f : Name) (p : List Callsite) : (s : Sym) →
    populate th r f p s = ⟨(addsIn th f p s).foldl addAt r.map, r.callsites + s.inlined.length,
      r.flattened + (s.inlined.filter fun x => decide (x.2.data.total ≤ th)).length⟩
  | .mk d cs => by
    rw [populate, addsIn, Sym.inlined]
    rw [populateCalls_eq th _ f p cs]
    simp only [List.foldl_cons, List.foldl_append, List.foldl_nil]
    congr 1
theorem populateCalls_eq (th : Nat) (r : HybridOut) (f : Name) (p : List Callsite) : (cs : List (Callsite × Sym)) →
    populateCalls th r f p cs = ⟨(addsCalls th f p cs).foldl addAt r.map, r.callsites + (inlinedCalls cs).length,
      r.flattened + ((inlinedCalls cs).filter fun x => decide (x.2.data.total ≤ th)).length⟩
  | [] => by rw [populateCalls, addsCalls, inlinedCalls]; rfl
  | (k, c) :: t => by
    rw [populateCalls, addsCalls, inlinedCalls]
    simp only
    rw [populateCalls_eq th _ f p t]
    by_cases h : c.data.total ≤ th
    · rw [if_pos h, if_pos h, populate_eq th _ k.2 [] c]
      simp only [List.foldl_append, List.length_cons, List.length_append, HybridOut.mk.injEq, true_and]
      rw [List.filter_cons_of_pos (by simpa using h), List.length_cons, List.filter_append, List.length_append]
      omega
    · rw [if_neg h, if_neg h, populate_eq th _ f (p ++ [k]) c]
      simp only [List.foldl_append, List.length_cons, List.length_append, HybridOut.mk.injEq, true_and]
      rw [List.filter_cons_of_neg (by simpa using h), List.filter_append, List.length_append]
      omega
end

theorem buildHybrid_eq (th : Nat) (src : SymMap) : ∀ r : HybridOut, src.foldl (fun r x => populate th r x.1 [] x.2) r =
    ⟨(src.flatMap fun x => addsIn th x.1 [] x.2).foldl addAt r.map, r.callsites + (src.flatMap fun x => x.2.inlined).length,
      r.flattened + ((src.flatMap fun x => x.2.inlined).filter fun x => decide (x.2.data.total ≤ th)).length⟩ := by
  induction src with
  | nil => intro r; rfl
  | cons x t ih =>
    intro r
    rw [List.foldl_cons, ih, populate_eq]
    simp only [List.flatMap_cons, List.foldl_append, List.filter_append, List.length_append, HybridOut.mk.injEq, true_and]
    omega

/-- The two additions of an instance. -/
def addsOf (th : Nat) (x : (Name × List Callsite) × Sym) : List ((Name × List Callsite) × Data) :=
  [(x.1, ⟨x.2.data.total, x.2.data.head, []⟩), (x.1, ⟨0, 0, hybridPos th x.2⟩)]

mutual
theorem addsIn_perm (th : Nat) (f : Name) (p : List Callsite) : (s : Sym) → (addsIn th f p s).Perm ((placesIn th f p s).flatMap (addsOf th))
  | .mk d cs => by
    rw [addsIn, placesIn, List.flatMap_cons]
    refine List.Perm.cons _ ?_
    refine List.perm_append_comm.trans ?_
    exact List.Perm.append_left _ (addsCalls_perm th f p cs)
theorem addsCalls_perm (th : Nat) (f : Name) (p : List Callsite) : (cs : List (Callsite × Sym)) →
    (addsCalls th f p cs).Perm ((placesCalls th f p cs).flatMap (addsOf th))
  | [] => by rw [addsCalls, placesCalls]; exact List.Perm.refl _
  | (k, c) :: t => by
    rw [addsCalls, placesCalls, List.flatMap_append]
    refine List.Perm.append ?_ (addsCalls_perm th f p t)
    by_cases h : c.data.total ≤ th
    · rw [if_pos h, if_pos h]; exact addsIn_perm th k.2 [] c
    · rw [if_neg h, if_neg h]; exact addsIn_perm th f (p ++ [k]) c
end

theorem adds_perm (th : Nat) (src : SymMap) : (src.flatMap fun x => addsIn th x.1 [] x.2).Perm ((places th src).flatMap (addsOf th)) := by
  unfold places
  rw [List.flatMap_assoc]
  refine List.Perm.flatMap_left _ fun x _ => ?_
  exact addsIn_perm th x.1 [] x.2

theorem adds_sum (th : Nat) (l : List ((Name × List Callsite) × Sym)) (f : Name) (p : List Callsite) (v : Data → Nat) (w : Sym → Nat)
    (hv : ∀ x ∈ l, v ⟨x.2.data.total, x.2.data.head, []⟩ + v ⟨0, 0, hybridPos th x.2⟩ = w x.2) :
    (((l.flatMap (addsOf th)).filter fun x => x.1 = (f, p)).map fun x => v x.2).sum = (((l.filter fun x => x.1 = (f, p)).map Prod.snd).map w).sum := by
  induction l with
  | nil => rfl
  | cons x t ih =>
    have hx := hv x (by simp)
    rw [List.flatMap_cons, List.filter_append, List.map_append, List.sum_append, ih fun y hy => hv y (by simp [hy])]
    by_cases h : x.1 = (f, p)
    · rw [List.filter_cons_of_pos (by simpa using h)]
      simp only [addsOf, List.map_cons, List.sum_cons]
      rw [List.filter_cons_of_pos (by simpa using h), List.filter_cons_of_pos (by simpa using h)]
      simp only [List.filter_nil, List.map_cons, List.map_nil, List.sum_cons, List.sum_nil]
      omega
    · rw [List.filter_cons_of_neg (by simpa using h)]
      simp only [addsOf]
      rw [List.filter_cons_of_neg (by simpa using h), List.filter_cons_of_neg (by simpa using h)]
      simp

/-! ### Places -/

/-- Instances below one symbol. -/
inductive PlacedIn (th : Nat) : Name → List Callsite → Sym → Name → List Callsite → Sym → Prop
  | here {f p s} : PlacedIn th f p s f p s
  | hot {f p s k c g q t} : (k, c) ∈ s.calls → th < c.data.total → PlacedIn th f (p ++ [k]) c g q t → PlacedIn th f p s g q t
  | cold {f p s k c g q t} : (k, c) ∈ s.calls → c.data.total ≤ th → PlacedIn th k.2 [] c g q t → PlacedIn th f p s g q t

mutual
theorem mem_placesIn (th : Nat) (f : Name) (p : List Callsite) (g : Name) (q : List Callsite) (t : Sym) : (s : Sym) →
    (((g, q), t) ∈ placesIn th f p s ↔ PlacedIn th f p s g q t)
  | .mk d cs => by
    rw [placesIn, List.mem_cons, mem_placesCalls th f p g q t cs]
    constructor
    · rintro (h | ⟨k, c, hk, h⟩)
      · injection h with h1 h2; injection h1 with h1 h3; subst h1; subst h2; subst h3; exact .here
      · rcases h with ⟨h1, h2⟩ | ⟨h1, h2⟩
        · exact .cold hk h1 h2
        · exact .hot hk h1 h2
    · intro h
      cases h with
      | here => exact Or.inl rfl
      | hot hk h1 h2 => exact Or.inr ⟨_, _, hk, Or.inr ⟨h1, h2⟩⟩
      | cold hk h1 h2 => exact Or.inr ⟨_, _, hk, Or.inl ⟨h1, h2⟩⟩
theorem mem_placesCalls (th : Nat) (f : Name) (p : List Callsite) (g : Name) (q : List Callsite) (t : Sym) : (cs : List (Callsite × Sym)) →
    (((g, q), t) ∈ placesCalls th f p cs ↔ ∃ k c, (k, c) ∈ cs ∧
      ((c.data.total ≤ th ∧ PlacedIn th k.2 [] c g q t) ∨ (th < c.data.total ∧ PlacedIn th f (p ++ [k]) c g q t)))
  | [] => by rw [placesCalls]; simp
  | (k, c) :: cs => by
    have h1 := mem_placesIn th k.2 [] g q t c
    have h2 := mem_placesIn th f (p ++ [k]) g q t c
    rw [placesCalls, List.mem_append, mem_placesCalls th f p g q t cs]
    by_cases h : c.data.total ≤ th
    · rw [if_pos h, h1]
      constructor
      · rintro (h' | ⟨k', c', hm, h'⟩)
        · exact ⟨k, c, by simp, Or.inl ⟨h, h'⟩⟩
        · exact ⟨k', c', by simp [hm], h'⟩
      · rintro ⟨k', c', hm, h'⟩
        rcases List.mem_cons.1 hm with e | hm
        · injection e with e1 e2
          subst e1; subst e2
          rcases h' with ⟨_, h'⟩ | ⟨h3, _⟩
          · exact Or.inl h'
          · omega
        · exact Or.inr ⟨k', c', hm, h'⟩
    · rw [if_neg h, h2]
      constructor
      · rintro (h' | ⟨k', c', hm, h'⟩)
        · exact ⟨k, c, by simp, Or.inr ⟨by omega, h'⟩⟩
        · exact ⟨k', c', by simp [hm], h'⟩
      · rintro ⟨k', c', hm, h'⟩
        rcases List.mem_cons.1 hm with e | hm
        · injection e with e1 e2
          subst e1; subst e2
          rcases h' with ⟨h3, _⟩ | ⟨_, h'⟩
          · exact absurd h3 h
          · exact Or.inl h'
        · exact Or.inr ⟨k', c', hm, h'⟩
end

theorem PlacedIn.placed {th : Nat} {src : SymMap} {f p s g q t} (h : PlacedIn th f p s g q t) (hs : Placed th src f p s) : Placed th src g q t := by
  induction h with
  | here => exact hs
  | hot hk h1 _ ih => exact ih (.hot hs hk h1)
  | cold hk h1 _ ih => exact ih (.cold hs hk h1)

theorem PlacedIn.hotEnd {th : Nat} {f p s g q t} (h : PlacedIn th f p s g q t) : ∀ {k c}, (k, c) ∈ t.calls → th < c.data.total → PlacedIn th f p s g (q ++ [k]) c := by
  induction h with
  | here => intro k c hk h; exact .hot hk h .here
  | hot hk h1 _ ih => intro k c hk' h'; exact .hot hk h1 (ih hk' h')
  | cold hk h1 _ ih => intro k c hk' h'; exact .cold hk h1 (ih hk' h')

theorem PlacedIn.coldEnd {th : Nat} {f p s g q t} (h : PlacedIn th f p s g q t) : ∀ {k c}, (k, c) ∈ t.calls → c.data.total ≤ th → PlacedIn th f p s k.2 [] c := by
  induction h with
  | here => intro k c hk h; exact .cold hk h .here
  | hot hk h1 _ ih => intro k c hk' h'; exact .hot hk h1 (ih hk' h')
  | cold hk h1 _ ih => intro k c hk' h'; exact .cold hk h1 (ih hk' h')

/-- The list of places is the relation. -/
theorem mem_places (th : Nat) (src : SymMap) (f : Name) (p : List Callsite) (s : Sym) : ((f, p), s) ∈ places th src ↔ Placed th src f p s := by
  unfold places
  rw [List.mem_flatMap]
  constructor
  · rintro ⟨⟨g, t⟩, hx, h⟩
    exact ((mem_placesIn th g [] f p s t).1 h).placed (.function hx)
  · intro h
    induction h with
    | function hm => exact ⟨_, hm, (mem_placesIn ..).2 .here⟩
    | hot _ hk h1 ih => obtain ⟨x, hx, h⟩ := ih; exact ⟨x, hx, (mem_placesIn ..).2 (((mem_placesIn ..).1 h).hotEnd hk h1)⟩
    | cold _ hk h1 ih => obtain ⟨x, hx, h⟩ := ih; exact ⟨x, hx, (mem_placesIn ..).2 (((mem_placesIn ..).1 h).coldEnd hk h1)⟩

theorem Placed.prefix {th : Nat} {src : SymMap} {f p s} (h : Placed th src f p s) : ∀ q, q <+: p → ∃ t, Placed th src f q t := by
  induction h with
  | function hm => intro q hq; rw [List.prefix_nil.1 hq]; exact ⟨_, .function hm⟩
  | hot hp hk h1 ih =>
    intro q hq
    rcases List.prefix_concat_iff.1 hq with e | hq
    · rw [e]; exact ⟨_, .hot hp hk h1⟩
    · exact ih q hq
  | cold hp hk h1 _ => intro q hq; rw [List.prefix_nil.1 hq]; exact ⟨_, .cold hp hk h1⟩

theorem Placed.wf {th : Nat} {src : SymMap} (hm : src.WF) {f p s} (h : Placed th src f p s) : s.WF := by
  induction h with
  | function h => exact hm.2 _ h
  | hot _ hk _ ih => exact ((Sym.WF_iff _).1 ih).2.2.2 _ hk
  | cold _ hk _ ih => exact ((Sym.WF_iff _).1 ih).2.2.2 _ hk

theorem hybridPos_obs (th : Nat) {s : Sym} (hw : s.WF) : OMap.Sorted (hybridPos th s) ∧ (hybridPos th s).TargetsOk ∧ ∀ o,
    (hybridPos th s).countAt o = hybridCount th s o ∧ (hybridPos th s).instAt o = s.data.pos.instAt o ∧
    ∀ t, (hybridPos th s).targetAt o t = hybridTarget th s o t := by
  have hwf := (Sym.WF_iff _).1 hw
  exact flatten_obs (s.coldCalls th) hwf.1 hwf.2.1

/-! ### Main theorems -/

theorem le_sum_mem {l : List Nat} {a : Nat} (h : a ∈ l) : a ≤ l.sum := by
  induction l with
  | nil => simp at h
  | cons b t ih =>
    rw [List.sum_cons]
    rcases List.mem_cons.1 h with rfl | h
    · omega
    · have := ih h; omega

/-- C54: the hybrid profile. Every function and inline instance of the source goes to its place; what is at a place is the sum of what
went there, and nothing else exists. -/
theorem hybrid_profile (th : Nat) (src : SymMap) (hsrc : src.WF) :
    (buildHybrid th src).map.WF ∧
    (∀ f p, (∃ s, OMap.find? (buildHybrid th src).map f = some s ∧ (s.node? p).isSome = true) ↔ ∃ s, Placed th src f p s) ∧
    (∀ f p, ((buildHybrid th src).map.get f).totalAt p = ((sources th src f p).map fun s => s.data.total).sum ∧
      ((buildHybrid th src).map.get f).headAt p = ((sources th src f p).map fun s => s.data.head).sum ∧
      ∀ o, ((buildHybrid th src).map.get f).countAt p o = ((sources th src f p).map fun s => hybridCount th s o).sum ∧
        ((buildHybrid th src).map.get f).instAt p o = ((sources th src f p).map fun s => s.data.pos.instAt o).sum ∧
        ∀ t, ((buildHybrid th src).map.get f).targetAt p o t = ((sources th src f p).map fun s => hybridTarget th s o t).sum) ∧
    (buildHybrid th src).callsites = (src.flatMap fun x => x.2.inlined).length ∧
    (buildHybrid th src).flattened = ((src.flatMap fun x => x.2.inlined).filter fun x => decide (x.2.data.total ≤ th)).length := by
  have he : buildHybrid th src = _ := buildHybrid_eq th src ⟨[], 0, 0⟩
  have hp := adds_perm th src
  have hL : ∀ x ∈ src.flatMap (fun x => addsIn th x.1 [] x.2), OMap.Sorted x.2.pos ∧ x.2.pos.TargetsOk := by
    intro x hx
    obtain ⟨y, hy, hx⟩ := List.mem_flatMap.1 (hp.mem_iff.1 hx)
    obtain ⟨⟨g, q⟩, t⟩ := y
    have hw := ((mem_places ..).1 hy).wf hsrc
    obtain ⟨w1, w2, _⟩ := hybridPos_obs th hw
    unfold addsOf at hx
    rcases List.mem_cons.1 hx with rfl | hx
    · exact ⟨OMap.sorted_nil, fun p hp => by simp at hp⟩
    · rw [List.mem_singleton.1 hx]
      exact ⟨w1, w2⟩
  have hs := HybridSum.adds _ hL
  have hmap : (buildHybrid th src).map = (src.flatMap fun x => addsIn th x.1 [] x.2).foldl addAt [] := by rw [he]
  rw [← hmap] at hs
  have sum_perm : ∀ (f : Name) (p : List Callsite) (v : Data → Nat),
      (((src.flatMap fun x => addsIn th x.1 [] x.2).filter fun x => x.1 = (f, p)).map fun x => v x.2).sum =
      ((((places th src).flatMap (addsOf th)).filter fun x => x.1 = (f, p)).map fun x => v x.2).sum :=
    fun f p v => ((hp.filter _).map _).sum_eq
  have hw : ∀ x ∈ places th src, x.2.WF := fun x hx => ((mem_places th src x.1.1 x.1.2 x.2).1 hx).wf hsrc
  have fin : ∀ (f : Name) (p : List Callsite) (v : Data → Nat) (w : Sym → Nat),
      (∀ s : Sym, s.WF → v ⟨s.data.total, s.data.head, []⟩ + v ⟨0, 0, hybridPos th s⟩ = w s) →
      (((src.flatMap fun x => addsIn th x.1 [] x.2).filter fun x => x.1 = (f, p)).map fun x => v x.2).sum = ((sources th src f p).map w).sum := by
    intro f p v w h
    rw [sum_perm, adds_sum th _ f p v w fun x hx => h x.2 (hw x hx)]
    rfl
  refine ⟨hs.wf, ?_, ?_, ?_, ?_⟩
  · intro f p
    rw [hs.node]
    constructor
    · rintro ⟨x, hx, h1, h2⟩
      obtain ⟨y, hy, hx⟩ := List.mem_flatMap.1 (hp.mem_iff.1 hx)
      have : x.1 = y.1 := by
        unfold addsOf at hx
        rcases List.mem_cons.1 hx with rfl | hx
        · rfl
        · rw [List.mem_singleton.1 hx]
      rw [this] at h1 h2
      obtain ⟨t, ht⟩ := ((mem_places th src y.1.1 y.1.2 y.2).1 hy).prefix p h2
      rw [h1] at ht
      exact ⟨t, ht⟩
    · rintro ⟨s, h⟩
      refine ⟨((f, p), ⟨s.data.total, s.data.head, []⟩), hp.mem_iff.2 (List.mem_flatMap.2 ⟨_, (mem_places ..).2 h, ?_⟩), rfl, List.prefix_refl _⟩
      simp [addsOf]
  · intro f p
    refine ⟨?_, ?_, fun o => ⟨?_, ?_, fun t => ?_⟩⟩
    · exact (hs.total f p).trans (fin f p (fun d => d.total) _ fun s _ => by simp)
    · exact (hs.head f p).trans (fin f p (fun d => d.head) _ fun s _ => by simp)
    · exact (hs.count f p o).trans (fin f p (fun d => d.pos.countAt o) _ fun s h => by
        rw [← ((hybridPos_obs th h).2.2 o).1]
        simp [PosMap.countAt, OMap.find?, PInfo.zero])
    · exact (hs.inst f p o).trans (fin f p (fun d => d.pos.instAt o) _ fun s h => by
        rw [← ((hybridPos_obs th h).2.2 o).2.1]
        simp [PosMap.instAt, OMap.find?, PInfo.zero])
    · exact (hs.target f p o t).trans (fin f p (fun d => d.pos.targetAt o t) _ fun s h => by
        rw [← ((hybridPos_obs th h).2.2 o).2.2 t]
        simp [PosMap.targetAt, OMap.find?, PInfo.zero, OMap.get0])
  · rw [he]; simp
  · rw [he]; simp

/-- C54: what stays inlined is hot: its total is above the threshold. -/
theorem hybrid_inlined_hot (th : Nat) (src : SymMap) (hsrc : src.WF) (f : Name) (p : List Callsite) (hp : p ≠ [])
    (h : ∃ s, OMap.find? (buildHybrid th src).map f = some s ∧ (s.node? p).isSome = true) :
    th < ((buildHybrid th src).map.get f).totalAt p := by
  obtain ⟨_, h1, h2, _⟩ := hybrid_profile th src hsrc
  obtain ⟨s, hs⟩ := (h1 f p).1 h
  have hhot : th < s.data.total := by
    cases hs with
    | function _ => exact absurd rfl hp
    | hot _ _ h => exact h
    | cold _ _ _ => exact absurd rfl hp
  rw [(h2 f p).1]
  have hm : s ∈ sources th src f p := by
    unfold sources
    exact List.mem_map.2 ⟨((f, p), s), List.mem_filter.2 ⟨(mem_places ..).2 hs, by simp⟩, rfl⟩
  exact lt_of_lt_of_le hhot (le_sum_mem (List.mem_map.2 ⟨s, hm, rfl⟩))

/-! ### Witnesses -/

/-- `main` (own count 5 at location 1) inlines a hot `g` (total 40, which inlines a cold `h`, total 3) and a cold `h` (total 2). -/
def hybridEx : SymMap := [([109], .mk ⟨47, 7, [(1, ⟨5, 1, []⟩)]⟩
  [((2, [103]), .mk ⟨40, 0, [(1, ⟨37, 1, []⟩)]⟩ [((4, [104]), .mk ⟨3, 3, [(1, ⟨3, 1, []⟩)]⟩ [])]),
   ((3, [104]), .mk ⟨2, 0, [(1, ⟨2, 1, []⟩)]⟩ [])])]

/-- The hypotheses of `hybrid_profile` are met, the inlined `g` stays with the raised count at its cold call, and both `h` are joined. -/
theorem hybridEx_ok : hybridEx.WF ∧
    ((buildHybrid 10 hybridEx).map.get [109]).totalAt [(2, [103])] = 40 ∧ ((buildHybrid 10 hybridEx).map.get [109]).countAt [(2, [103])] 4 = 3 ∧
    ((buildHybrid 10 hybridEx).map.get [104]).totalAt [] = 5 ∧ (buildHybrid 10 hybridEx).callsites = 3 ∧ (buildHybrid 10 hybridEx).flattened = 2 ∧
    Placed 10 hybridEx [109] [(2, [103])] (.mk ⟨40, 0, [(1, ⟨37, 1, []⟩)]⟩ [((4, [104]), .mk ⟨3, 3, [(1, ⟨3, 1, []⟩)]⟩ [])]) := by
  refine ⟨?_, by decide +kernel, by decide +kernel, by decide +kernel, by decide +kernel, by decide +kernel, ?_⟩
  · refine ⟨by simp [hybridEx, OMap.Sorted], ?_⟩
    intro p hp
    simp only [hybridEx, List.mem_singleton] at hp
    subst hp
    simp [Sym.WF, WFCalls, OMap.Sorted]
  · exact Placed.hot (p := []) (Placed.function (f := [109]) (by simp [hybridEx]; rfl)) (by simp [Sym.calls]) (by simp [Sym.data])

/-- The sum of all function totals grows although no sample was added: the caller keeps the total of a call site that is taken out of it
(symbol_map.cc:1296; compare symbol_map.cc:1376). -/
theorem hybrid_total_counted_twice_violated : ∃ src : SymMap, src.WF ∧ src.map (fun x => x.2.data.total) = [47] ∧
    ((buildHybrid 10 src).map.map fun x => x.2.data.total) = [5, 47] ∧
    -- the caller's own counts and inlined totals
    ((buildHybrid 10 src).map.get [109]).countAt [] 1 + ((buildHybrid 10 src).map.get [109]).countAt [] 3 + ((buildHybrid 10 src).map.get [109]).totalAt [(2, [103])] = 45 :=
  ⟨hybridEx, hybridEx_ok.1, by decide +kernel, by decide +kernel, by decide +kernel⟩

/-- The call left behind by a cold call site has count 0 unless the entry count of the callee was recorded: it is not estimated, unlike in
a flat profile (symbol_map.cc:1309-1310; compare symbol_map.cc:1452). -/
theorem hybrid_call_count_lost_violated : ∃ src : SymMap, src.WF ∧
    (∃ s c, ([109], s) ∈ src ∧ ((3, [104]), c) ∈ s.calls ∧ Entry c 2) ∧
    ((buildHybrid 10 src).map.get [109]).countAt [] 3 = 0 ∧ ((buildHybrid 10 src).map.get [109]).targetAt [] 3 [104] = 0 := by
  refine ⟨hybridEx, hybridEx_ok.1, ⟨_, _, List.mem_singleton.2 rfl, List.mem_cons_of_mem _ (List.mem_singleton.2 rfl), ?_⟩, by decide +kernel, by decide +kernel⟩
  exact Entry.loc (o := 1) (p := ⟨2, 1, []⟩) rfl (by simp) (by simp) (by simp)

end Verif.SymbolMap
