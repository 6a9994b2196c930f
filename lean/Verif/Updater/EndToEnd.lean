import Verif.Updater.MountedExample
import Verif.Provider.Props
import Verif.Stream.Content

/-! # Bytes end to end (C210)

From a file on the workstation to a read on the instance, with all parts at work: the manifest written by the updater (`Verif.Updater`), the chunk map and the server
that answers requests for chunks (cdc_stream/file_chunk_map.cc and grpc_asset_stream_server.cc, `Verif.ChunkMap` and `Verif.Content`), the chunk provider with
its cache on disk (data_store/data_provider.cc, `Verif.Provider`), and the assets of the file system (cdc_fuse_fs/asset.cc, `Verif.Asset`). This file only puts them together. -/
namespace Verif.Updater.EndToEnd
open Verif.Manifest

/-! ### Specification -/

/-- No two of these pieces of data have the same content id. -/
def Unique (cid : List UInt8 → Id) (D : List UInt8 → Prop) : Prop := ∀ x y, D x → D y → cid x = cid y → x = y

/-- The server at some moment: the operations on its chunk map so far, the files on its disk and its data store, when no file has changed since it was chunked, and the data
store holds what it was given under the id of it. -/
structure Server (cid : List UInt8 → Id) where
  ops : List ChunkMap.Op
  files : ChunkMap.Path → Option (List UInt8)
  store : Id → Option (List UInt8)
  unchanged : Content.InSync cid files ops
  stored : ∀ id d, store id = some d → cid d = id

/-- What the server answers to a request for these ids. -/
def Server.answer {cid : List UInt8 → Id} (s : Server cid) (ids : List Id) : Option (List (List UInt8)) :=
  Content.getContent (ChunkMap.Map.run {} s.ops) s.files s.store ids

/-- The data that the connection delivers for a chunk come from an answer of the server, at some moment, to a request for some ids. `D` are the pieces of data that occur. -/
def Connected (cid : List UInt8 → Id) (D : List UInt8 → Prop) (E : Provider.Env) : Prop :=
  ∀ id d, E.src id d → D d ∧ ∃ (s : Server cid) (ids : List Id) (ds : List (List UInt8)) (i : Nat),
    s.answer ids = some ds ∧ ids[i]? = some id ∧ ds[i]? = some d

/-- What can be in the cache on the instance: it was empty at first, and then there were any calls of the provider, each of which ended, or was ended by a crash of
the process. -/
inductive Cached (E : Provider.Env) : (Id → Option (List UInt8)) → Prop where
  | empty : Cached E fun _ => none
  | chunks {s s' hasWriter readers ts o} : Cached E s.cache → (∀ t ∈ ts, Provider.Fresh t) → Provider.getChunks E hasWriter readers ts s o s' → Cached E s'.cache
  | whole {s s' hasWriter readers id o} : Cached E s.cache → Provider.getWhole E hasWriter readers id s o s' → Cached E s'.cache

/-- The provider as the file system uses it. -/
def provider (E : Provider.Env) (hasWriter : Bool) (readers : List Provider.Kind) : Asset.Reader :=
  fun ts ok ts' => ∃ s s' a, Cached E s.cache ∧ Provider.getChunks E hasWriter readers ts s (.ret a) s' ∧ a.ok = ok ∧ a.tasks = ts'

/-! ### Proof -/

/-- The data with this content id. -/
noncomputable def truthOf (cid : List UInt8 → Id) (D : List UInt8 → Prop) (id : Id) : List UInt8 :=
  open Classical in if h : ∃ x, D x ∧ cid x = id then h.choose else []

section
variable {cid : List UInt8 → Id} {D : List UInt8 → Prop}

theorem truthOf_cid (hu : Unique cid D) (x : List UInt8) (hx : D x) : truthOf cid D (cid x) = x := by
  have h : ∃ y, D y ∧ cid y = cid x := ⟨x, hx, rfl⟩
  unfold truthOf
  rw [dif_pos h]
  exact hu _ _ h.choose_spec.1 hx h.choose_spec.2

/-- The server only ever delivers the right data. -/
theorem connected_truth (hu : Unique cid D) {E : Provider.Env} (hE : Connected cid D E) (id : Id) (d : List UInt8) (h : E.src id d) :
    d = truthOf cid D id := by
  obtain ⟨hd, s, ids, ds, i, h1, h2, h3⟩ := hE id d h
  have hr := Content.C78_content_right_partial s.unchanged s.stored h1
  have : cid d = id := by
    have hm : (ds.map cid)[i]? = some (cid d) := by rw [List.getElem?_map, h3]; rfl
    rw [hr, h2] at hm
    exact (Option.some.inj hm).symm
  rw [← this, truthOf_cid hu d hd]

/-- The cache only ever holds beginnings of the right data. -/
theorem cached_truth (hu : Unique cid D) {E : Provider.Env} (hE : Connected cid D E) (ht : E.torn) {c : Id → Option (List UInt8)} (h : Cached E c) :
    ∀ id d, c id = some d → d <+: truthOf cid D id := by
  have hsrc := connected_truth hu hE
  induction h with
  | empty => intro id d h; cases h
  | chunks _ hf hg ih => exact (Provider.C20_multi_chunk_read_right_bytes E _ hsrc _ _ _ hf _ _ _ ih ht hg).1
  | whole _ hg ih =>
    rename_i s s' _ _ _ o _
    have := Provider.sat_getWhole hsrc _ _ _ s o s' (fun id d hd => ⟨ih id d hd, fun e => absurd ht e⟩) hg
    cases o with
    | crashed => exact fun id d hd => (this id d hd).1
    | ret a => exact fun id d hd => (this.1 id d hd).1

theorem provider_good (hu : Unique cid D) {E : Provider.Env} (hE : Connected cid D E) (ht : E.torn) (hasWriter : Bool) (readers : List Provider.Kind) :
    Asset.GoodReader (truthOf cid D) (provider E hasWriter readers) := by
  rintro ts ok ts' hf ⟨s, s', a, hc, hg, rfl, rfl⟩
  have hspec := (Provider.C20_multi_chunk_read_right_bytes E _ (connected_truth hu hE) hasWriter readers ts hf s s' (.ret a)
    (cached_truth hu hE ht hc) ht hg).2 a rfl
  exact ⟨hspec.requests, fun t h1 h2 h3 => (hspec.bytes t h1 h2 h3).2⟩

end

/-! ### Result -/

/-- **C210.** A read of a file on the instance that succeeds returns the bytes of the file on the workstation, at any offset, clipped at its end: for every source directory, every
history of updates before, every path by which the file was found, every history of the cache with crashes and torn writes, other threads at work, and every moment at
which the server answers, as long as no chunked file changes. Partial: see `C81_manifest_mirrors_source_partial`. -/
theorem C210_bytes_arrive_partial (P : Env) (hsort : ∀ l, (P.cfg.sort l).Perm l) (hchunk : ∀ c, (P.chunk c).flatten = c) (src : Node) (srcs : List Node)
    (S : List Stored) (id : Id) (hup : Updates P (src :: srcs) S id) (hver : Versions S (src :: srcs)) (hc : NoCollision P.cfg.hash S)
    (D : List UInt8 → Prop) (hu : Unique P.cid D) (hD : ∀ p t c, src.at p = some (.file t c) → ∀ x ∈ P.chunk c, D x)
    (St : Asset.Store) (hS : Serves P.cfg.hash S St) (root : Manifest.Asset) (hroot : findManifest P.cfg.hash S id = some root)
    (E : Provider.Env) (hE : Connected P.cid D E) (ht : E.torn) (hasWriter : Bool) (readers : List Provider.Kind)
    (p : List Name) (a : Manifest.Asset) (h : Reached St root p a) (t : Int) (c : List UInt8) (hp : src.at p = some (.file t c))
    (offset size prefetch : Nat) (hpre : size ≤ prefetch) (s s' : Asset.State) (hs : Asset.Other St a (Asset.initial a) s) (n : Nat) (data : List UInt8)
    (hr : Asset.read St a (provider E hasWriter readers) prefetch offset size s (some (n, data)) s') :
    data = (c.drop offset).take size ∧ n = data.length :=
  (C82_contents_partial P hsort hchunk src srcs S id hup hver hc St hS root hroot (truthOf P.cid D) (fun p t c hp x hx => truthOf_cid hu x (hD p t c hp x hx))
    (provider E hasWriter readers) (provider_good hu hE ht hasWriter readers) p a h t c hp offset size prefetch hpre s s' hs (some (n, data)) hr).1 n data rfl

/-! ### A case -/

namespace Ex
open Content

/-- A server with a file of two chunks. -/
def server : Server idHash where
  ops := history
  files := Content.before
  store := fun _ => none
  unchanged := inSync_before
  stored := fun _ _ h => nomatch h

theorem answered : server.answer [[3, 4], [1, 2]] = some [[3, 4], [1, 2]] :=
  (by decide : getContent (ChunkMap.Map.run {} history) Content.before (fun _ => none) [[3, 4], [1, 2]] = some [[3, 4], [1, 2]])

/-- The connection to it. -/
def E : Provider.Env where
  src := fun id d => d = id ∧ (id = [1, 2] ∨ id = [3, 4])
  torn := True

theorem connected : Connected idHash (fun _ => True) E := by
  rintro id d ⟨rfl, h⟩
  refine ⟨trivial, server, [[3, 4], [1, 2]], [[3, 4], [1, 2]], ?_⟩
  rcases h with rfl | rfl
  · exact ⟨1, answered, rfl, rfl⟩
  · exact ⟨0, answered, rfl, rfl⟩

theorem unique : Unique Updater.Ex.P.cid (fun _ => True) := fun _ _ _ _ h => h

/-- The ids of the updater are those of the server. -/
example : Updater.Ex.P.cid = idHash := rfl

/-- The provider delivers part of a chunk into the buffer. -/
example : provider E false [.grpc] [⟨[3, 4], 1, 1, [0], [], false⟩] true [⟨[3, 4], 1, 1, [4], [3, 4], true⟩] := by
  let t3 : Provider.Task := ⟨[3, 4], 1, 1, [4], [3, 4], true⟩
  let h1 : Nat → Bool := fun m => [Provider.mutexOf [3, 4]].contains m
  let s0 : Provider.State := { cache := fun _ => none, held := fun _ => false }
  let s1 : Provider.State := { s0 with held := h1 }
  refine ⟨s0, s1, ⟨true, [t3], true⟩, .empty, ?_, rfl, rfl⟩
  refine Provider.bind_run (a := [⟨[3, 4], 1, 1, [0], [], false⟩]) (s' := s0) (Provider.pure_run _ _) ?_
  refine Provider.bind_run (a := ()) (s' := s1) (Provider.bind_run (Provider.interfere_run _) rfl) ?_
  refine Provider.bind_run (a := [⟨[3, 4], 1, 1, [0], [], false⟩]) (s' := s1) (Provider.pure_run _ _) ?_
  refine Provider.bind_run (a := (true, [t3])) (s' := s1) ?_ (Provider.pure_run _ _)
  refine Provider.bind_run (a := (true, [t3])) (s' := s1) ?_ (Provider.pure_run _ _)
  refine Provider.bind_run (a := Provider.Res.ok [3, 4]) (s' := s1) ⟨rfl, rfl, .inr rfl⟩ ?_
  exact Provider.bind_run (m := pure (true, ([] : List Provider.Task))) (f := fun r : Bool × List Provider.Task => pure (r.1, t3 :: r.2))
    (Provider.pure_run _ _) (Provider.pure_run _ _)

/-- A file of 20 bytes in a subdirectory whose list of entries was split, after two updates: it is found, and reads return its bytes. -/
example (E : Provider.Env) (hE : Connected Updater.Ex.P.cid (fun _ => True) E) (ht : E.torn) (hasWriter : Bool) (readers : List Provider.Kind) :
    ∃ root a, findManifest Updater.Ex.P.cfg.hash Updater.Ex.u2.2.store Updater.Ex.u2.1 = some root ∧ Reached Updater.Ex.St root [[100], Reflush.longName 7] a ∧
      ∀ offset size prefetch n data s', size ≤ prefetch →
        Asset.read Updater.Ex.St a (provider E hasWriter readers) prefetch offset size (Asset.initial a) (some (n, data)) s' →
        data = ((Updater.Ex.content 20).drop offset).take size ∧ n = data.length := by
  obtain ⟨b, h1, -, -⟩ := C81_manifest_mirrors_source_partial Updater.Ex.P Updater.Ex.hsort Updater.Ex.hchunk Updater.Ex.src2 [Updater.Ex.src1] _ _
    Updater.Ex.updates (Updater.Ex.versions _) Updater.Ex.noCollision
  unfold loadManifest at h1
  obtain ⟨root, hroot, -⟩ := Option.map_eq_some_iff.mp h1
  have hx : Updater.Ex.src2.at [[100], Reflush.longName 7] = some (.file 5 (Updater.Ex.content 20)) := rfl
  obtain ⟨a, ha, -⟩ := C82_everything_is_there_partial Updater.Ex.P Updater.Ex.hsort Updater.Ex.hchunk Updater.Ex.src2 [Updater.Ex.src1] _ _ Updater.Ex.updates
    (Updater.Ex.versions _) Updater.Ex.noCollision Updater.Ex.St ⟨rfl, rfl⟩ root hroot (fun h => h) (fun h => h) _ _ hx
  exact ⟨root, a, hroot, ha, fun offset size prefetch n data s' hpre hr =>
    C210_bytes_arrive_partial Updater.Ex.P Updater.Ex.hsort Updater.Ex.hchunk Updater.Ex.src2 [Updater.Ex.src1] _ _ Updater.Ex.updates (Updater.Ex.versions _)
      Updater.Ex.noCollision _ unique (fun _ _ _ _ _ _ => trivial) Updater.Ex.St ⟨rfl, rfl⟩ root hroot E hE ht hasWriter readers _ a ha _ _ hx offset size prefetch
      hpre _ s' (.refl _) n data hr⟩

end Ex

end Verif.Updater.EndToEnd
