import Verif.Spec.IntGraphMem
import Verif.Props.IntGraph
/-
C210: memory of the directed integer graph.
-/
namespace Prolothar.IntGraphMem
open Prolothar.IntGraph (Graph)
open Prolothar.Spec.IntGraphMem (Abs Allowed AllAllowed)

abbrev Cells := List (Nat × Block)

/-- the memory consists of exactly these blocks -/
structure Rep (m : Mem) (L : Cells) : Prop where
  wf : m.blocks.WF
  lt : ∀ a b, m.blocks.get? a = some b → a < m.next
  cells : ∀ a b, m.blocks.get? a = some b ↔ (a, b) ∈ L
  nodup : (L.map Prod.fst).Nodup

theorem Rep.perm {m : Mem} {L L' : Cells} (h : Rep m L) (hp : L.Perm L') : Rep m L' :=
  ⟨h.wf, h.lt, fun a b => (h.cells a b).trans hp.mem_iff, (hp.map Prod.fst).nodup_iff.1 h.nodup⟩

theorem Rep.read {m : Mem} {L : Cells} (h : Rep m L) {a : Nat} {b : Block} (hm : (a, b) ∈ L) : read m a = .ok b := by
  unfold IntGraphMem.read
  rw [(h.cells a b).2 hm]

theorem Rep.alloc {m : Mem} {L : Cells} (h : Rep m L) (b : Block) : Rep (alloc m b).2 ((m.next, b) :: L) := by
  have hn : ∀ x, m.blocks.get? m.next ≠ some x := fun x hx => Nat.lt_irrefl _ (h.lt _ _ hx)
  unfold IntGraphMem.alloc
  refine ⟨h.wf.put _ _, ?_, ?_, ?_⟩
  · intro a c hc
    dsimp only at hc ⊢
    rw [Dict.get?_put] at hc
    split at hc
    · omega
    · have := h.lt a c hc; omega
  · intro a c
    dsimp only
    rw [Dict.get?_put]
    split
    · rename_i e
      subst e
      constructor
      · intro e; cases e; exact List.mem_cons_self
      · intro e
        rcases List.mem_cons.1 e with e | e
        · cases e; rfl
        · exact absurd ((h.cells _ _).2 e) (hn _)
    · rename_i e
      rw [h.cells]
      constructor
      · exact List.mem_cons_of_mem _
      · intro c
        rcases List.mem_cons.1 c with c | c
        · cases c; exact absurd rfl e
        · exact c
  · rw [List.map_cons, List.nodup_cons]
    refine ⟨?_, h.nodup⟩
    intro hm
    obtain ⟨⟨a, c⟩, hc, e⟩ := List.mem_map.1 hm
    dsimp only at e
    subst e
    exact hn c ((h.cells _ _).2 hc)

theorem Rep.write {m : Mem} {L : Cells} {a : Nat} {b : Block} (h : Rep m ((a, b) :: L)) (b' : Block) :
    ∃ m', write m a b' = .ok m' ∧ Rep m' ((a, b') :: L) := by
  unfold IntGraphMem.write
  rw [h.read List.mem_cons_self]
  have hnd := List.nodup_cons.1 (show (a :: L.map Prod.fst).Nodup from h.nodup)
  refine ⟨_, rfl, h.wf.put _ _, ?_, ?_, h.nodup⟩
  · intro x c hc
    dsimp only at hc ⊢
    rw [Dict.get?_put] at hc
    split at hc
    · rename_i e; subst e; exact h.lt _ _ ((h.cells _ _).2 List.mem_cons_self)
    · exact h.lt x c hc
  · intro x c
    dsimp only
    rw [Dict.get?_put]
    split
    · rename_i e
      subst e
      constructor
      · intro e; cases e; exact List.mem_cons_self
      · intro e
        rcases List.mem_cons.1 e with e | e
        · cases e; rfl
        · exact absurd (List.mem_map.2 ⟨_, e, rfl⟩) hnd.1
    · rename_i e
      rw [h.cells, List.mem_cons, List.mem_cons]
      constructor <;> rintro (c | c)
      · cases c; exact absurd rfl e
      · exact .inr c
      · cases c; exact absurd rfl e
      · exact .inr c

theorem Rep.free {m : Mem} {L : Cells} {a : Nat} {b : Block} (h : Rep m ((a, b) :: L)) :
    ∃ m', free m a = .ok m' ∧ Rep m' L := by
  unfold IntGraphMem.free
  rw [h.read List.mem_cons_self]
  have hnd := List.nodup_cons.1 (show (a :: L.map Prod.fst).Nodup from h.nodup)
  refine ⟨_, rfl, h.wf.del _, ?_, ?_, hnd.2⟩
  · intro x c hc
    dsimp only at hc ⊢
    rw [Dict.get?_del h.wf] at hc
    split at hc
    · cases hc
    · exact h.lt x c hc
  · intro x c
    dsimp only
    rw [Dict.get?_del h.wf]
    split
    · rename_i e
      subst e
      constructor
      · intro e; cases e
      · intro e; exact absurd (List.mem_map.2 ⟨_, e, rfl⟩) hnd.1
    · rename_i e
      rw [h.cells, List.mem_cons]
      constructor
      · rintro (c | c)
        · cases c; exact absurd rfl e
        · exact c
      · exact .inr

/-- the two blocks of a graph -/
def graphCells (p q : Nat) (rows : Graph) : Cells := [(p, .graph rows.length q), (q, .array rows)]

theorem newGraph_ok {m : Mem} {L : Cells} (h : Rep m L) (rows : Graph) :
    ∃ p q m', newGraph m rows = .ok (p, m') ∧ Rep m' (graphCells p q rows ++ L) := by
  have h1 := h.alloc (.graph rows.length 0)
  have h2 := h1.alloc (.array rows)
  obtain ⟨m', e, h3⟩ := (h2.perm (List.Perm.swap _ _ _)).write (.graph rows.length (m.next + 1))
  refine ⟨m.next, m.next + 1, m', ?_, h3⟩
  unfold newGraph
  show (IntGraphMem.write _ m.next _ >>= _) = _
  erw [e]
  rfl

theorem adjOf_ok {m : Mem} {L : Cells} {p q : Nat} {rows : Graph} (h : Rep m (graphCells p q rows ++ L)) : adjOf m p = .ok q := by
  unfold adjOf
  rw [h.read (List.mem_cons_self (a := (p, Block.graph rows.length q)))]
  rfl

theorem rowsAt_ok {m : Mem} {L : Cells} {p q : Nat} {rows : Graph} (h : Rep m (graphCells p q rows ++ L)) : rowsAt m p = .ok rows := by
  unfold rowsAt
  rw [adjOf_ok h]
  show (IntGraphMem.read m q >>= _) = _
  rw [h.read (b := .array rows) (by simp [graphCells])]
  rfl

theorem setRows_ok {m : Mem} {L : Cells} {p q : Nat} {rows : Graph} (h : Rep m (graphCells p q rows ++ L)) (rows' : Graph)
    (hl : rows'.length = rows.length) : ∃ m', setRows m p rows' = .ok m' ∧ Rep m' (graphCells p q rows' ++ L) := by
  obtain ⟨m', e, h'⟩ := (h.perm (List.Perm.swap _ _ _)).write (.array rows')
  refine ⟨m', ?_, ?_⟩
  · unfold setRows
    rw [adjOf_ok h]
    exact e
  · unfold graphCells
    rw [hl]
    exact h'.perm (List.Perm.swap _ _ _)

theorem deleteGraph_ok {m : Mem} {L : Cells} {p q : Nat} {rows : Graph} (h : Rep m (graphCells p q rows ++ L)) :
    ∃ m', deleteGraph m p = .ok m' ∧ Rep m' L := by
  obtain ⟨m1, e1, h1⟩ := (h.perm (List.Perm.swap _ _ _)).free
  obtain ⟨m2, e2, h2⟩ := h1.free
  refine ⟨m2, ?_, h2⟩
  unfold deleteGraph
  rw [adjOf_ok h]
  show (IntGraphMem.free m q >>= _) = _
  rw [e1]
  exact e2

theorem copyObj_ok {m : Mem} {L : Cells} {p q : Nat} {rows : Graph} (h : Rep m (graphCells p q rows ++ L)) :
    ∃ p' q' m', copyObj m p = .ok (p', m') ∧ Rep m' (graphCells p' q' rows ++ (graphCells p q rows ++ L)) := by
  obtain ⟨p0, q0, m1, e1, h1⟩ := newGraph_ok h (IntGraph.new 0)
  obtain ⟨m2, e2, h2⟩ := deleteGraph_ok h1
  obtain ⟨p', q', m3, e3, h3⟩ := newGraph_ok h2 rows
  refine ⟨p', q', m3, ?_, h3⟩
  unfold copyObj
  rw [e1]
  show (deleteGraph m1 p0 >>= _) = _
  rw [e2]
  show (rowsAt m2 p >>= _) = _
  rw [rowsAt_ok h2]
  show newGraph m2 (IntGraph.copy rows) = _
  rw [IntGraph.copy_eq]
  exact e3

/-- the blocks of the components that have been found -/
def compCells (as : List Nat) (comps : List (List Nat)) : Cells := List.zipWith (fun a l => (a, Block.ints l)) as comps

theorem popLoop_ok {L : Cells} {r c q fuel : Nat} {gr : Graph} : ∀ (stack visited : List Nat) (comps : List (List Nat)) (as : List Nat) (m : Mem)
    {res : List (List Nat)}, as.length = comps.length →
    Rep m (compCells as comps ++ ((c, .ptrs as) :: (graphCells r q gr ++ L))) →
    IntGraph.popLoop gr fuel stack visited comps = .ok res →
    ∃ as' m', popLoop r c fuel stack visited m = .ok m' ∧ as'.length = res.length ∧
      Rep m' (compCells as' res ++ ((c, .ptrs as') :: (graphCells r q gr ++ L)))
  | [], visited, comps, as, m, res, hl, h, e => by
    cases e
    exact ⟨as, m, rfl, hl, h⟩
  | v :: stack, visited, comps, as, m, res, hl, h, e => by
    unfold IntGraph.popLoop at e
    unfold popLoop
    split at e
    · rename_i hv
      rw [if_pos hv]
      exact popLoop_ok stack visited comps as m hl h e
    · rename_i hv
      rw [if_neg hv]
      cases hd : IntGraph.dfs gr fuel v (visited, []) with
      | error x => rw [hd] at e; cases e
      | ok st =>
        rw [hd] at e
        have e : IntGraph.popLoop gr fuel stack st.1 (comps ++ [st.2]) = .ok res := e
        have h1 := h.alloc (.ints [])
        have hr : rowsAt (alloc m (.ints [])).2 r = .ok gr := by
          refine rowsAt_ok (q := q) (L := (m.next, .ints []) :: (compCells as comps ++ ((c, .ptrs as) :: L))) (h1.perm ?_)
          refine List.perm_iff_count.2 fun x => ?_
          simp only [graphCells, List.count_cons, List.count_append, List.count_nil]
          omega
        obtain ⟨m2, e2, h2⟩ := h1.write (.ints st.2)
        have hp : ((m.next, Block.ints st.2) :: (compCells as comps ++ ((c, .ptrs as) :: (graphCells r q gr ++ L)))).Perm
            ((c, .ptrs as) :: (compCells (as ++ [m.next]) (comps ++ [st.2]) ++ (graphCells r q gr ++ L))) := by
          refine List.perm_iff_count.2 fun x => ?_
          unfold compCells
          rw [List.zipWith_append hl]
          simp only [List.count_cons, List.count_append, List.zipWith_cons_cons, List.zipWith_nil_left, List.count_nil]
          omega
        have h2' := h2.perm hp
        obtain ⟨m3, e3, h3⟩ := h2'.write (.ptrs (as ++ [m.next]))
        have e3' : pushPtr m2 c m.next = .ok m3 := by
          unfold pushPtr
          rw [h2'.read List.mem_cons_self]
          exact e3
        obtain ⟨as', m', r1, r2, r3⟩ := popLoop_ok stack st.1 (comps ++ [st.2]) (as ++ [m.next]) m3 (by simp [hl])
          (h3.perm List.perm_middle.symm) e
        refine ⟨as', m', ?_, r2, r3⟩
        show (rowsAt (alloc m (.ints [])).2 r >>= _) = _
        rw [hr]
        show (IntGraph.dfs gr fuel v (visited, []) >>= _) = _
        rw [hd]
        show (IntGraphMem.write (alloc m (.ints [])).2 m.next (.ints st.2) >>= _) = _
        rw [e2]
        show (pushPtr m2 c m.next >>= _) = _
        rw [e3']
        exact r1

theorem convert_ok {L : Cells} : ∀ (as : List Nat) (comps acc : List (List Nat)) (m : Mem), as.length = comps.length →
    Rep m (compCells as comps ++ L) → ∃ m', convert as acc m = .ok (acc ++ comps, m') ∧ Rep m' L
  | [], [], acc, m, _, h => ⟨m, by simp [convert], h⟩
  | [], _ :: _, _, _, hl, _ => by cases hl
  | _ :: _, [], _, _, hl, _ => by cases hl
  | a :: as, l :: comps, acc, m, hl, h => by
    have h : Rep m ((a, .ints l) :: (compCells as comps ++ L)) := h
    obtain ⟨m1, e1, h1⟩ := h.free
    obtain ⟨m2, e2, h2⟩ := convert_ok as comps (acc ++ [l]) m1 (by simpa using hl) h1
    refine ⟨m2, ?_, h2⟩
    unfold convert
    rw [h.read List.mem_cons_self]
    show (IntGraphMem.free m a >>= _) = _
    rw [e1]
    show convert as (acc ++ [l]) m1 = _
    rw [e2]
    simp

theorem bind_ok {α β : Type} {x : Py α} {f : α → Py β} {b : β} (h : (x >>= f) = .ok b) : ∃ a, x = .ok a ∧ f a = .ok b := by
  cases x with
  | error e => cases h
  | ok a => exact ⟨a, rfl, h⟩

theorem addEdge_length {g g' : Graph} {v w : Nat} (h : IntGraph.addEdge g v w = .ok g') : g'.length = g.length := by
  unfold IntGraph.addEdge at h
  obtain ⟨l, _, h⟩ := bind_ok h
  cases h
  simp

theorem removeEdge_length {g g' : Graph} {v w : Nat} (h : IntGraph.removeEdge g v w = .ok g') : g'.length = g.length := by
  unfold IntGraph.removeEdge at h
  obtain ⟨l, _, h⟩ := bind_ok h
  cases h
  simp

theorem transposeRow_length {v : Nat} : ∀ (is : List Nat) {g g' : Graph}, IntGraph.transposeRow v is g = .ok g' → g'.length = g.length
  | [], g, g', h => by cases h; rfl
  | i :: is, g, g', h => by
    unfold IntGraph.transposeRow at h
    obtain ⟨g1, h1, h⟩ := bind_ok h
    rw [transposeRow_length is h, addEdge_length h1]

theorem transpose_length {g gr : Graph} (h : IntGraph.transpose g = .ok gr) : gr.length = g.length := by
  have aux : ∀ (l : List (List Nat × Nat)) {a b : Graph}, l.foldlM (fun gr p => IntGraph.transposeRow p.2 p.1 gr) a = .ok b → b.length = a.length := by
    intro l
    induction l with
    | nil => intro a b h; cases h; rfl
    | cons p l ih =>
      intro a b h
      rw [List.foldlM_cons] at h
      obtain ⟨c, h1, h⟩ := bind_ok h
      rw [ih h, transposeRow_length _ h1]
  rw [aux _ h]
  simp [IntGraph.new]

theorem transposeObj_ok {m : Mem} {L : Cells} {p q : Nat} {rows gr : Graph} (h : Rep m (graphCells p q rows ++ L))
    (e : IntGraph.transpose rows = .ok gr) :
    ∃ r q' m', transposeObj m p = .ok (r, m') ∧ Rep m' (graphCells r q' gr ++ (graphCells p q rows ++ L)) := by
  obtain ⟨r, q', m1, e1, h1⟩ := newGraph_ok h (IntGraph.new rows.length)
  obtain ⟨m2, e2, h2⟩ := setRows_ok h1 gr (by rw [transpose_length e]; simp [IntGraph.new])
  refine ⟨r, q', m2, ?_, h2⟩
  unfold transposeObj
  rw [rowsAt_ok h]
  show (newGraph m (IntGraph.new rows.length) >>= _) = _
  rw [e1]
  show (IntGraph.transpose rows >>= _) = _
  rw [e]
  show (setRows m1 r gr >>= _) = _
  rw [e2]
  rfl

theorem sccObj_ok {m : Mem} {L : Cells} {p q : Nat} {rows : Graph} (h : Rep m (graphCells p q rows ++ L)) {comps : List (List Nat)}
    (e : IntGraph.scc rows = .ok comps) : ∃ m', sccObj m p = .ok (comps, m') ∧ Rep m' (graphCells p q rows ++ L) := by
  unfold IntGraph.scc at e
  obtain ⟨st, es, e⟩ := bind_ok e
  obtain ⟨gr, eg, e⟩ := bind_ok e
  obtain ⟨r, q', m1, e1, h1⟩ := transposeObj_ok h eg
  have h2 := h1.alloc (.ptrs [])
  obtain ⟨as, m3, e3, hl, h3⟩ := popLoop_ok (r := r) (c := m1.next) (q := q') (L := graphCells p q rows ++ L) st.2 [] [] [] _ rfl h2 e
  have hp : (compCells as comps ++ ((m1.next, Block.ptrs as) :: (graphCells r q' gr ++ (graphCells p q rows ++ L)))).Perm
      (graphCells r q' gr ++ ((m1.next, Block.ptrs as) :: (compCells as comps ++ (graphCells p q rows ++ L)))) := by
    refine List.perm_iff_count.2 fun x => ?_
    simp only [List.count_cons, List.count_append]
    omega
  obtain ⟨m4, e4, h4⟩ := deleteGraph_ok (h3.perm hp)
  have hf : findScc m p = .ok (m1.next, m4) := by
    unfold findScc
    rw [rowsAt_ok h]
    show (IntGraph.visitAll (IntGraph.fillOrder rows (rows.length + 1)) (List.range rows.length) ([], []) >>= _) = _
    rw [es]
    show (transposeObj m p >>= _) = _
    rw [e1]
    show (popLoop r m1.next (rows.length + 1) st.2 [] (alloc m1 (.ptrs [])).2 >>= _) = _
    rw [e3]
    show (deleteGraph m3 r >>= _) = _
    rw [e4]
    rfl
  have hp2 : ((m1.next, Block.ptrs as) :: (compCells as comps ++ (graphCells p q rows ++ L))).Perm
      (compCells as comps ++ ((m1.next, Block.ptrs as) :: (graphCells p q rows ++ L))) := List.perm_middle.symm
  obtain ⟨m5, e5, h5⟩ := convert_ok as comps [] m4 hl (h4.perm hp2)
  obtain ⟨m6, e6, h6⟩ := h5.free
  refine ⟨m6, ?_, h6⟩
  unfold sccObj
  rw [hf]
  show (IntGraphMem.read m4 m1.next >>= _) = _
  rw [h4.read List.mem_cons_self]
  show (convert as [] m4 >>= _) = _
  rw [e5]
  show (IntGraphMem.free m5 m1.next >>= _) = _
  rw [e6]
  rfl

/-- a live object: its number, the addresses of its two blocks, its graph -/
structure Obj where
  h : Nat
  p : Nat
  q : Nat
  rows : Graph

def cells (os : List Obj) : Cells := os.flatMap fun o => graphCells o.p o.q o.rows

/-- the memory consists of the blocks of the live objects -/
structure Rel (os : List Obj) (s : Sys) (a : Abs) : Prop where
  rep : Rep s.mem (cells os)
  objs : s.objs = os.map fun o => (o.h, o.p)
  graphs : a.objs = os.map fun o => (o.h, o.rows)
  next : s.nextObj = a.nextObj
  lt : ∀ o ∈ os, o.h < a.nextObj
  nodup : (os.map (·.h)).Nodup

section dict
variable {α : Type}

theorem put_mid (h : Nat) (x y : α) : ∀ (l1 l2 : Dict Nat α), h ∉ l1.keys →
    Dict.put (l1 ++ (h, x) :: l2) h y = l1 ++ (h, y) :: l2
  | [], l2, _ => by simp [Dict.put]
  | (k, z) :: l1, l2, hn => by
    have hk : k ≠ h := fun e => hn (by simp [Dict.keys, e])
    have hn' : h ∉ Dict.keys l1 := fun e => hn (by simp only [Dict.keys, List.map_cons]; exact List.mem_cons_of_mem _ e)
    show Dict.put ((k, z) :: (l1 ++ (h, x) :: l2)) h y = _
    simp only [Dict.put, if_neg hk]
    rw [put_mid h x y l1 l2 hn']
    rfl

theorem put_new (h : Nat) (y : α) : ∀ (l : Dict Nat α), h ∉ l.keys → Dict.put l h y = l ++ [(h, y)]
  | [], _ => rfl
  | (k, z) :: l, hn => by
    have hk : k ≠ h := fun e => hn (by simp [Dict.keys, e])
    have hn' : h ∉ Dict.keys l := fun e => hn (by simp only [Dict.keys, List.map_cons]; exact List.mem_cons_of_mem _ e)
    simp only [Dict.put, if_neg hk]
    rw [put_new h y l hn']
    rfl

theorem del_mid (h : Nat) (x : α) : ∀ (l1 l2 : Dict Nat α), h ∉ l1.keys → Dict.del (l1 ++ (h, x) :: l2) h = l1 ++ l2
  | [], l2, _ => by simp [Dict.del]
  | (k, z) :: l1, l2, hn => by
    have hk : k ≠ h := fun e => hn (by simp [Dict.keys, e])
    have hn' : h ∉ Dict.keys l1 := fun e => hn (by simp only [Dict.keys, List.map_cons]; exact List.mem_cons_of_mem _ e)
    show Dict.del ((k, z) :: (l1 ++ (h, x) :: l2)) h = _
    simp only [Dict.del, if_neg hk]
    rw [del_mid h x l1 l2 hn']
    rfl

end dict

theorem keys_map {α : Type} (f : Obj → α) (os : List Obj) : Dict.keys (os.map fun o => (o.h, f o)) = os.map (·.h) := by
  simp [Dict.keys]

/-- a live object of the specification has its blocks -/
theorem Rel.find {os : List Obj} {s : Sys} {a : Abs} (hr : Rel os s a) {h : Nat} {g : Graph} (e : a.objs.getItem h = .ok g) :
    ∃ os1 o os2, os = os1 ++ o :: os2 ∧ o.h = h ∧ o.rows = g ∧ s.objs.getItem h = .ok o.p ∧ h ∉ os1.map (·.h) ∧
      Rep s.mem (graphCells o.p o.q o.rows ++ cells (os1 ++ os2)) := by
  have hwfa : a.objs.WF := by unfold Dict.WF; rw [hr.graphs, keys_map]; exact hr.nodup
  have hwfs : s.objs.WF := by unfold Dict.WF; rw [hr.objs, keys_map]; exact hr.nodup
  have hg : a.objs.get? h = some g := by
    unfold Dict.getItem at e
    cases hg : a.objs.get? h with
    | none => rw [hg] at e; cases e
    | some x => rw [hg] at e; cases e; rfl
  have hm := Dict.mem_of_get? hg
  rw [hr.graphs] at hm
  obtain ⟨o, ho, eo⟩ := List.mem_map.1 hm
  cases eo
  have hs : s.objs.get? o.h = some o.p := Dict.get?_of_mem hwfs (by rw [hr.objs]; exact List.mem_map.2 ⟨o, ho, rfl⟩)
  obtain ⟨os1, os2, rfl⟩ := List.append_of_mem ho
  refine ⟨os1, o, os2, rfl, rfl, rfl, by unfold Dict.getItem; rw [hs], ?_, ?_⟩
  · have := hr.nodup
    rw [List.map_append, List.map_cons, List.nodup_append] at this
    intro hc
    exact this.2.2 _ hc _ List.mem_cons_self rfl
  · refine hr.rep.perm ?_
    unfold cells
    rw [List.flatMap_append, List.flatMap_cons, List.flatMap_append]
    refine List.perm_iff_count.2 fun x => ?_
    simp only [List.count_append]
    omega

/-- replacing the graph of an object -/
theorem Rel.update {os1 os2 : List Obj} {o : Obj} {s : Sys} {a : Abs} (hr : Rel (os1 ++ o :: os2) s a) (hn : o.h ∉ os1.map (·.h)) {g : Graph}
    {m : Mem} (hm : Rep m (graphCells o.p o.q g ++ cells (os1 ++ os2))) :
    Rel (os1 ++ { o with rows := g } :: os2) { s with mem := m } { a with objs := a.objs.put o.h g } := by
  refine ⟨?_, ?_, ?_, hr.next, ?_, ?_⟩
  · refine hm.perm ?_
    unfold cells
    rw [List.flatMap_append, List.flatMap_append, List.flatMap_cons]
    refine List.perm_iff_count.2 fun x => ?_
    simp only [List.count_append]
    omega
  · show s.objs = _
    rw [hr.objs]
    simp
  · show a.objs.put o.h g = _
    rw [hr.graphs, List.map_append, List.map_cons, put_mid _ _ _ _ _ (by rw [keys_map]; exact hn)]
    simp
  · intro x hx
    rcases List.mem_append.1 hx with hx | hx
    · exact hr.lt x (by simp [hx])
    · rcases List.mem_cons.1 hx with rfl | hx
      · exact hr.lt o (by simp)
      · exact hr.lt x (by simp [hx])
  · have := hr.nodup
    simpa using this

/-- a new object -/
theorem Rel.new {os : List Obj} {s : Sys} {a : Abs} (hr : Rel os s a) {p q : Nat} {g : Graph} {m : Mem}
    (hm : Rep m (graphCells p q g ++ cells os)) :
    Rel (os ++ [⟨a.nextObj, p, q, g⟩]) ⟨m, s.objs.put s.nextObj p, s.nextObj + 1⟩ ⟨a.objs.put a.nextObj g, a.nextObj + 1⟩ := by
  have hn : a.nextObj ∉ os.map (·.h) := by
    intro hc
    obtain ⟨o, ho, e⟩ := List.mem_map.1 hc
    have := hr.lt o ho
    omega
  refine ⟨?_, ?_, ?_, by simp [hr.next], ?_, ?_⟩
  · refine hm.perm ?_
    unfold cells
    rw [List.flatMap_append]
    refine List.perm_append_comm.trans ?_
    simp
  · show s.objs.put s.nextObj p = _
    rw [hr.objs, hr.next, put_new _ _ _ (by rw [keys_map]; exact hn)]
    simp
  · show a.objs.put a.nextObj g = _
    rw [hr.graphs, put_new _ _ _ (by rw [keys_map]; exact hn)]
    simp
  · intro o ho
    rcases List.mem_append.1 ho with ho | ho
    · have := hr.lt o ho
      show o.h < a.nextObj + 1
      omega
    · rw [List.mem_singleton.1 ho]
      show a.nextObj < a.nextObj + 1
      omega
  · rw [List.map_append, List.nodup_append]
    refine ⟨hr.nodup, by simp, ?_⟩
    intro x hx y hy
    have : y = a.nextObj := by simpa using hy
    rw [this]
    rintro rfl
    exact hn hx

/-- one call: no undefined behaviour, the result is the one of the specification -/
theorem step_refines {os : List Obj} {s : Sys} {a a' : Abs} {op : Op} {r : Res} (hr : Rel os s a)
    (e : Spec.IntGraphMem.step a op = .ok (a', r)) : ∃ os' s', step s op = .ok (s', r) ∧ Rel os' s' a' := by
  cases op with
  | new V =>
    cases e
    obtain ⟨p, q, m, e1, h1⟩ := newGraph_ok hr.rep (IntGraph.new V)
    refine ⟨_, _, ?_, hr.new h1⟩
    show (newGraph s.mem (IntGraph.new V) >>= _) = _
    rw [e1, ← hr.next]
    rfl
  | copy h =>
    obtain ⟨g, eg, e⟩ := bind_ok e
    cases e
    obtain ⟨os1, o, os2, rfl, rfl, rfl, ep, hn, hrep⟩ := hr.find eg
    obtain ⟨p', q', m, e1, h1⟩ := copyObj_ok hrep
    have hp : (graphCells p' q' o.rows ++ (graphCells o.p o.q o.rows ++ cells (os1 ++ os2))).Perm
        (graphCells p' q' o.rows ++ cells (os1 ++ o :: os2)) := by
      unfold cells
      rw [List.flatMap_append, List.flatMap_append, List.flatMap_cons]
      refine List.perm_iff_count.2 fun x => ?_
      simp only [List.count_append]
      omega
    refine ⟨_, _, ?_, hr.new (h1.perm hp)⟩
    show (s.objs.getItem o.h >>= _) = _
    rw [ep]
    show (copyObj s.mem o.p >>= _) = _
    rw [e1, ← hr.next]
    rfl
  | add h v w =>
    obtain ⟨g, eg, e⟩ := bind_ok e
    obtain ⟨g', eg', e⟩ := bind_ok e
    cases e
    obtain ⟨os1, o, os2, rfl, rfl, rfl, ep, hn, hrep⟩ := hr.find eg
    obtain ⟨m, e1, h1⟩ := setRows_ok hrep g' (addEdge_length eg')
    refine ⟨_, _, ?_, hr.update hn h1⟩
    show (s.objs.getItem o.h >>= _) = _
    rw [ep]
    show (rowsAt s.mem o.p >>= _) = _
    rw [rowsAt_ok hrep]
    show (IntGraph.addEdge o.rows v w >>= _) = _
    rw [eg']
    show (setRows s.mem o.p g' >>= _) = _
    rw [e1]
    rfl
  | remove h v w =>
    obtain ⟨g, eg, e⟩ := bind_ok e
    obtain ⟨g', eg', e⟩ := bind_ok e
    cases e
    obtain ⟨os1, o, os2, rfl, rfl, rfl, ep, hn, hrep⟩ := hr.find eg
    obtain ⟨m, e1, h1⟩ := setRows_ok hrep g' (removeEdge_length eg')
    refine ⟨_, _, ?_, hr.update hn h1⟩
    show (s.objs.getItem o.h >>= _) = _
    rw [ep]
    show (rowsAt s.mem o.p >>= _) = _
    rw [rowsAt_ok hrep]
    show (IntGraph.removeEdge o.rows v w >>= _) = _
    rw [eg']
    show (setRows s.mem o.p g' >>= _) = _
    rw [e1]
    rfl
  | contains h v w =>
    obtain ⟨g, eg, e⟩ := bind_ok e
    obtain ⟨b, eb, e⟩ := bind_ok e
    cases e
    obtain ⟨os1, o, os2, rfl, rfl, rfl, ep, hn, hrep⟩ := hr.find eg
    refine ⟨_, s, ?_, hr⟩
    show (s.objs.getItem o.h >>= _) = _
    rw [ep]
    show (rowsAt s.mem o.p >>= _) = _
    rw [rowsAt_ok hrep]
    show (IntGraph.containsEdge o.rows v w >>= _) = _
    rw [eb]
    rfl
  | ancestors h v =>
    obtain ⟨g, eg, e⟩ := bind_ok e
    obtain ⟨b, eb, e⟩ := bind_ok e
    cases e
    obtain ⟨os1, o, os2, rfl, rfl, rfl, ep, hn, hrep⟩ := hr.find eg
    refine ⟨_, s, ?_, hr⟩
    show (s.objs.getItem o.h >>= _) = _
    rw [ep]
    show (rowsAt s.mem o.p >>= _) = _
    rw [rowsAt_ok hrep]
    show (IntGraph.adjacency o.rows v >>= _) = _
    rw [eb]
    rfl
  | components h =>
    obtain ⟨g, eg, e⟩ := bind_ok e
    obtain ⟨comps, ec, e⟩ := bind_ok e
    cases e
    obtain ⟨os1, o, os2, rfl, rfl, rfl, ep, hn, hrep⟩ := hr.find eg
    obtain ⟨m, e1, h1⟩ := sccObj_ok hrep ec
    refine ⟨os1 ++ o :: os2, { s with mem := m }, ?_, ?_, hr.objs, hr.graphs, hr.next, hr.lt, hr.nodup⟩
    · show (s.objs.getItem o.h >>= _) = _
      rw [ep]
      show (sccObj s.mem o.p >>= _) = _
      rw [e1]
      rfl
    · refine h1.perm ?_
      unfold cells
      rw [List.flatMap_append, List.flatMap_append, List.flatMap_cons]
      refine List.perm_iff_count.2 fun x => ?_
      simp only [List.count_append]
      omega
  | drop h =>
    obtain ⟨g, eg, e⟩ := bind_ok e
    cases e
    obtain ⟨os1, o, os2, rfl, rfl, rfl, ep, hn, hrep⟩ := hr.find eg
    obtain ⟨m, e1, h1⟩ := deleteGraph_ok hrep
    refine ⟨os1 ++ os2, { s with mem := m, objs := s.objs.del o.h }, ?_, h1, ?_, ?_, hr.next, ?_, ?_⟩
    · show (s.objs.getItem o.h >>= _) = _
      rw [ep]
      show (deleteGraph s.mem o.p >>= _) = _
      rw [e1]
      rfl
    · show s.objs.del o.h = _
      rw [hr.objs, List.map_append, List.map_cons, del_mid _ _ _ _ (by rw [keys_map]; exact hn)]
      simp
    · show a.objs.del o.h = _
      rw [hr.graphs, List.map_append, List.map_cons, del_mid _ _ _ _ (by rw [keys_map]; exact hn)]
      simp
    · intro x hx
      exact hr.lt x (by rcases List.mem_append.1 hx with hx | hx <;> simp [hx])
    · refine hr.nodup.sublist ?_
      rw [List.map_append, List.map_append, List.map_cons]
      exact List.Sublist.append (List.Sublist.refl _) (List.sublist_cons_self _ _)

theorem run_refines : ∀ (ops : List Op) {os : List Obj} {s : Sys} {a a' : Abs} {rs : List Res}, Rel os s a →
    Spec.IntGraphMem.run ops a = .ok (a', rs) → ∃ os' s', run ops s = .ok (s', rs) ∧ Rel os' s' a'
  | [], os, s, a, a', rs, hr, e => by cases e; exact ⟨os, s, rfl, hr⟩
  | op :: ops, os, s, a, a', rs, hr, e => by
    unfold Spec.IntGraphMem.run at e
    obtain ⟨⟨a1, r⟩, e1, e⟩ := bind_ok e
    obtain ⟨⟨a2, rs'⟩, e2, e⟩ := bind_ok e
    cases e
    obtain ⟨os1, s1, f1, h1⟩ := step_refines hr e1
    obtain ⟨os2, s2, f2, h2⟩ := run_refines ops h1 e2
    refine ⟨os2, s2, ?_, h2⟩
    unfold run
    rw [f1]
    show (run ops s1 >>= _) = _
    rw [f2]
    rfl

/-- the program has not begun -/
def start : Sys := ⟨⟨[], 0⟩, [], 0⟩
def absStart : Abs := ⟨[], 0⟩

theorem rel_start : Rel [] start absStart :=
  ⟨⟨Dict.WF.nil, by simp [start, Dict.get?], by simp [start, cells, Dict.get?], by simp [cells]⟩, rfl, rfl, rfl, by simp, by simp⟩

/-- C210: a program whose calls are allowed has no undefined behaviour, and its results are those of a program in which graphs are values: no call
changes another object. -/
theorem C210_refines (ops : List Op) {a : Abs} {rs : List Res} (e : Spec.IntGraphMem.run ops absStart = .ok (a, rs)) :
    ∃ s, run ops start = .ok (s, rs) ∧ s.objs.keys = a.objs.keys ∧
      ∀ h g, a.objs.get? h = some g → ∃ p, s.objs.get? h = some p ∧ rowsAt s.mem p = .ok g := by
  obtain ⟨os, s, h1, h2⟩ := run_refines ops rel_start e
  refine ⟨s, h1, by rw [h2.objs, h2.graphs, keys_map, keys_map], fun h g hg => ?_⟩
  obtain ⟨os1, o, os2, rfl, rfl, rfl, ep, _, hrep⟩ := h2.find (h := h) (g := g) (by unfold Dict.getItem; rw [hg])
  refine ⟨o.p, ?_, rowsAt_ok hrep⟩
  unfold Dict.getItem at ep
  cases hs : s.objs.get? o.h with
  | none => rw [hs] at ep; cases ep
  | some x => rw [hs] at ep; cases ep; rfl

/-- C210: after every call exactly two blocks per live object are allocated, so nothing leaks; if no object is left the memory is empty. -/
theorem C210_no_leak (ops : List Op) {a : Abs} {rs : List Res} (e : Spec.IntGraphMem.run ops absStart = .ok (a, rs)) :
    ∃ s, run ops start = .ok (s, rs) ∧ s.mem.blocks.length = 2 * a.objs.length ∧ (a.objs = [] → s.mem.blocks = []) := by
  obtain ⟨os, s, h1, h2⟩ := run_refines ops rel_start e
  have hl : s.mem.blocks.length = 2 * a.objs.length := by
    have hp : s.mem.blocks.keys.Perm ((cells os).map Prod.fst) := by
      refine (List.perm_ext_iff_of_nodup h2.rep.wf h2.rep.nodup).2 fun x => ?_
      rw [Dict.mem_keys_iff]
      constructor
      · rintro ⟨b, hb⟩
        exact List.mem_map.2 ⟨_, (h2.rep.cells _ _).1 hb, rfl⟩
      · intro hx
        obtain ⟨⟨y, b⟩, hb, rfl⟩ := List.mem_map.1 hx
        exact ⟨b, (h2.rep.cells _ _).2 hb⟩
    have hc : ∀ os : List Obj, (cells os).length = 2 * os.length := by
      intro os
      induction os with
      | nil => rfl
      | cons o os ih =>
        unfold cells at ih ⊢
        rw [List.flatMap_cons, List.length_append, ih]
        simp [graphCells]
        omega
    have := hp.length_eq
    rw [List.length_map, hc] at this
    unfold Dict.keys at this
    rw [List.length_map] at this
    rw [this, h2.graphs, List.length_map]
  refine ⟨s, h1, hl, fun ha => ?_⟩
  rw [ha] at hl
  exact List.eq_nil_of_length_eq_zero hl

theorem getItem_of {α : Type} {d : Dict Nat α} {h : Nat} {g : α} (e : d.get? h = some g) : d.getItem h = .ok g := by
  unfold Dict.getItem; rw [e]

/-- the edges of all graphs lead to nodes they have -/
def Fine (a : Abs) : Prop := ∀ h g, a.objs.get? h = some g → IntGraph.Valid g

theorem valid_of_E {g : Graph} (h : ∀ x y, IntGraph.E g x y → y < g.length) : IntGraph.Valid g := by
  intro l hl b hb
  obtain ⟨i, hi⟩ := List.mem_iff_getElem?.1 hl
  exact h i b ⟨l, hi, hb⟩

theorem E_of_valid {g : Graph} (h : IntGraph.Valid g) {x y : Nat} (e : IntGraph.E g x y) : y < g.length := by
  obtain ⟨l, hl, hy⟩ := e
  exact h l (List.mem_of_getElem? hl) y hy

theorem fine_put {a : Abs} (hf : Fine a) {k n : Nat} {g : Graph} (hg : IntGraph.Valid g) : Fine ⟨a.objs.put k g, n⟩ := by
  intro h g' e
  dsimp only at e
  rw [Dict.get?_put] at e
  split at e
  · cases e; exact hg
  · exact hf h g' e

theorem allowed_step {a : Abs} (hw : a.objs.WF) (hf : Fine a) {op : Op} (ho : Allowed a op) :
    ∃ a' r, Spec.IntGraphMem.step a op = .ok (a', r) ∧ a'.objs.WF ∧ Fine a' := by
  cases op with
  | new V =>
    refine ⟨_, _, rfl, hw.put _ _, fine_put hf ?_⟩
    intro l hl b hb
    rw [(List.mem_replicate.1 hl).2] at hb
    cases hb
  | copy h =>
    obtain ⟨g, hg⟩ := Dict.mem_keys_iff.1 ho
    refine ⟨⟨a.objs.put a.nextObj g, a.nextObj + 1⟩, .obj a.nextObj, ?_, hw.put _ _, fine_put hf (hf h g hg)⟩
    unfold Spec.IntGraphMem.step
    dsimp only
    rw [getItem_of hg]
    rfl
  | add h v w =>
    obtain ⟨g, hg, hv, hw'⟩ := ho
    obtain ⟨g', e, hl, hE⟩ := IntGraph.addEdge_ok hv w
    refine ⟨⟨a.objs.put h g', a.nextObj⟩, .none, ?_, hw.put _ _, fine_put hf (valid_of_E ?_)⟩
    · unfold Spec.IntGraphMem.step
      dsimp only
      rw [getItem_of hg]
      show (IntGraph.addEdge g v w >>= _) = _
      rw [e]
      rfl
    · intro x y hxy
      rw [hl]
      rcases (hE x y).1 hxy with c | ⟨_, rfl⟩
      · exact E_of_valid (hf h g hg) c
      · exact hw'
  | remove h v w =>
    obtain ⟨g, hg, hv⟩ := ho
    obtain ⟨g', e, hl, hE⟩ := IntGraph.removeEdge_ok hv w
    refine ⟨⟨a.objs.put h g', a.nextObj⟩, .none, ?_, hw.put _ _, fine_put hf (valid_of_E ?_)⟩
    · unfold Spec.IntGraphMem.step
      dsimp only
      rw [getItem_of hg]
      show (IntGraph.removeEdge g v w >>= _) = _
      rw [e]
      rfl
    · intro x y hxy
      rw [hl]
      exact E_of_valid (hf h g hg) ((hE x y).1 hxy).1
  | contains h v w =>
    obtain ⟨g, hg, hv⟩ := ho
    obtain ⟨l, hl, _⟩ := IntGraph.adjacency_ok hv
    refine ⟨a, .bool (l.any fun i => i == w), ?_, hw, hf⟩
    unfold Spec.IntGraphMem.step IntGraph.containsEdge
    dsimp only
    rw [getItem_of hg]
    show ((IntGraph.adjacency g v >>= _) >>= _) = _
    rw [hl]
    rfl
  | ancestors h v =>
    obtain ⟨g, hg, hv⟩ := ho
    obtain ⟨l, hl, _⟩ := IntGraph.adjacency_ok hv
    refine ⟨a, .nodes l, ?_, hw, hf⟩
    unfold Spec.IntGraphMem.step
    dsimp only
    rw [getItem_of hg]
    show (IntGraph.adjacency g v >>= _) = _
    rw [hl]
    rfl
  | components h =>
    obtain ⟨g, hg⟩ := Dict.mem_keys_iff.1 ho
    obtain ⟨comps, hc, _⟩ := IntGraph.scc_ok (hf h g hg)
    refine ⟨a, .comps comps, ?_, hw, hf⟩
    unfold Spec.IntGraphMem.step
    dsimp only
    rw [getItem_of hg]
    show (IntGraph.scc g >>= _) = _
    rw [hc]
    rfl
  | drop h =>
    obtain ⟨g, hg⟩ := Dict.mem_keys_iff.1 ho
    refine ⟨⟨a.objs.del h, a.nextObj⟩, .none, ?_, hw.del _, ?_⟩
    · unfold Spec.IntGraphMem.step
      dsimp only
      rw [getItem_of hg]
      rfl
    · intro k g' e
      dsimp only at e
      rw [Dict.get?_del hw] at e
      split at e
      · cases e
      · exact hf k g' e

/-- C210: calls on live objects with nodes of their graphs are enough: the program then runs to its end. -/
theorem C210_allowed (ops : List Op) (h : AllAllowed ops absStart) :
    ∃ a rs s, Spec.IntGraphMem.run ops absStart = .ok (a, rs) ∧ run ops start = .ok (s, rs) := by
  have main : ∀ (ops : List Op) (a : Abs), a.objs.WF → Fine a → AllAllowed ops a → ∃ a' rs, Spec.IntGraphMem.run ops a = .ok (a', rs) := by
    intro ops
    induction ops with
    | nil => intro a _ _ _; exact ⟨a, [], rfl⟩
    | cons op ops ih =>
      intro a hw hf hall
      obtain ⟨a1, r, e, hw1, hf1⟩ := allowed_step hw hf hall.1
      obtain ⟨a2, rs, e2⟩ := ih a1 hw1 hf1 (hall.2 a1 r e)
      refine ⟨a2, r :: rs, ?_⟩
      unfold Spec.IntGraphMem.run
      rw [e]
      show (Spec.IntGraphMem.run ops a1 >>= _) = _
      rw [e2]
      rfl
  obtain ⟨a, rs, e⟩ := main ops absStart Dict.WF.nil (by intro h g e; cases e) h
  obtain ⟨s, e2, _⟩ := C210_refines ops e
  exact ⟨a, rs, s, e, e2⟩

/-- two graphs, one a copy of the other and changed afterwards, with a component search in between; both end -/
def sampleOps : List Op := [.new 3, .add 0 0 1, .add 0 1 0, .copy 0, .remove 1 1 0, .components 0, .components 1, .drop 0, .contains 1 0 1]

example : (run sampleOps start).toOption.map (fun x => (x.2, x.1.mem.blocks.length)) =
    some ([.obj 0, .none, .none, .obj 1, .none, .comps [[2], [0, 1]], .comps [[2], [0], [1]], .none, .bool true], 2) := by decide +kernel

example : (run (sampleOps ++ [.drop 1]) start).toOption.map (fun x => x.1.mem.blocks) = some [] := by decide +kernel

example : ((Spec.IntGraphMem.run sampleOps absStart).toOption.map fun x => x.1.objs) = some [(1, [[1], [], []])] := by decide +kernel

example : AllAllowed [.new 2, .add 0 0 1, .drop 0] absStart := by
  refine ⟨trivial, fun a r e => ?_⟩
  cases e
  refine ⟨⟨[[], []], rfl, by decide, by decide⟩, fun a r e => ?_⟩
  cases e
  exact ⟨Dict.mem_keys_iff.2 ⟨[[1], []], rfl⟩, fun a r e => trivial⟩

end Prolothar.IntGraphMem
