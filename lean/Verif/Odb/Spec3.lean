import Verif.Odb.Spec
/-! # What happens to an object database in the course of time -/
namespace Verif.Odb.Spec
variable {σ : Type}

/-- One step: a call of the API, something is thrown out of the cache, or others (processes, say) add objects to what the backends have, and never the wrong ones. -/
inductive Step (cfg : Cfg) (ops : Ops σ) (P : Obj → Prop) (Good : σ → Prop) (after : σ → Objs) : Db σ → Db σ → Prop where
  | read {db id} : id.length = cfg.osz → Step cfg ops P Good after db (read cfg ops db id).1
  | header {db id} : id.length = cfg.osz → Step cfg ops P Good after db (readHeader cfg ops db id).1
  | has {db id} : id.length = cfg.osz → Step cfg ops P Good after db (exists' ops db id).1
  | readPrefix {db id len} : id.length = cfg.osz → Step cfg ops P Good after db (readPrefix cfg ops db id len).1
  | hasPrefix {db id len} : id.length = cfg.osz → Step cfg ops P Good after db (existsPrefix cfg ops db id len).1
  | refresh {db} : Step cfg ops P Good after db (refresh ops db).1
  | write {db o} : P o → Step cfg ops P Good after db (write cfg ops db o).1
  | evict {db cache} : (∀ x ∈ cache, x ∈ db.cache) → Step cfg ops P Good after db ⟨db.slots, cache⟩
  | others {db slots} : (∀ t ∈ slots, Good t.st ∧ ∀ id o, after t.st id = some o → P o ∧ cfg.idOf o = id) →
      (∀ s ∈ db.slots, ∀ id o, after s.st id = some o → ∃ t ∈ slots, after t.st id = some o) → Step cfg ops P Good after db ⟨slots, db.cache⟩

/-- any number of steps -/
inductive Run (cfg : Cfg) (ops : Ops σ) (P : Obj → Prop) (Good : σ → Prop) (after : σ → Objs) : Db σ → Db σ → Prop where
  | none {db} : Run cfg ops P Good after db db
  | more {a b c} : Run cfg ops P Good after a b → Step cfg ops P Good after b c → Run cfg ops P Good after a c

end Verif.Odb.Spec
