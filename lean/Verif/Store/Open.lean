import Verif.Store.PropsHistory

/-! Opening a folder: the steps of `addView` between the creation of the store and the end of the first pass. -/

namespace Verif.Store

open Verif.Encoding Verif.Storage

/-- One bundled file in `LoadStubs` (`store.go:296-308`); `d` is the file as `Load` reads it. -/
def Store.loadStub (env : Env) (s : Store) (d : Doc) : Option Store :=
  if s.db.get (entryKey cDoc d.uri) = some d.hash then some s else s.sync env d

/-- `LoadStubs` (`store.go:294-310`, `stub/phpstorm.go:30-48`): the bundled files in the order of the walk. -/
def Store.loadStubs (env : Env) (s : Store) (stubs : List Doc) : Option Store :=
  stubs.foldl (fun acc d => acc.bind fun s => s.loadStub env d) (some s)

/-- `addView` (`internal/lsp/workspaceStore.go:99-142`): the store is created over what is on the disk (`NewStore`),
migrated, the bundled files are loaded, and the folder is indexed (`indexFolder`, 186-215). `files` are the files
`ListFiles` finds whose names end in `.php` and that can be read; they are indexed one after the other, in any order
(what happens when several are indexed at a time is the subject of C104 to C107, which files reach which folder that
of C39, and that the pass ends that of C40). -/
def openFolder (env : Env) (older : Bytes → Option Bool) (version : Bytes) (stubs files : List Doc) (disk : Store) :
    Option Store :=
  disk.restart.bind fun s => ((s.migrate older version).loadStubs env stubs).bind fun s => pass env s files

end Verif.Store
