# Index of the model: every definition and the code it cites

Generated by `tools/design.py` from the comments of `lean/Verif/*/Model*.lean`. Paths are relative to `/repo`; what is simplified is said in the comment of the definition itself.

## Attr

| definition | cites |
|---|---|
| `signExtended` | src/libgit2/attr_file.c:413-418 |
| `nameHash` | src/libgit2/attr_file.c:408-419 |
| `nameCmp` | src/libgit2/attr_file.c:852-863 |
| `insertAssign` | src/libgit2/attr_file.c:875-883; src/util/vector.c:150-183 |
| `insertAll` | src/libgit2/attr_file.c:961-970 |
| `Macros` | src/libgit2/attrcache.c:16-17, 26 |
| `lookupMacro` | src/libgit2/attrcache.c:502-514 |
| `insertMacro` | src/libgit2/attrcache.c:464-500 |
| `prefixValue` | src/libgit2/attr_file.c:905-917 |
| `afterPrefix` | src/libgit2/attr_file.c:909-914 |
| `assignLoop` | src/libgit2/attr_file.c:899-982 |
| `parseAssigns` | src/libgit2/attr_file.c:885-990 |
| `Parsed` | src/libgit2/attr_file.c:717-834 |
| `parseOne` | src/libgit2/attr_file.c:717-850 |
| `ARule` | src/libgit2/attr_file.h:74-77 |
| `parseLoop` | src/libgit2/attr_file.c:363-399 |
| `parseBuffer` | src/libgit2/attr_file.c:345-406 |
| `fnmatch` | src/libgit2/attr_file.c:477-536 |
| `ruleMatch` | src/libgit2/attr_file.c:538-548 |
| `matchingRules` | src/libgit2/attr_file.h:198-200 |
| `findAssign` | src/libgit2/attr.c:86-90; attr_file.c:439-443, 550-562 |
| `getLoop` | src/libgit2/attr.c:83-92 |
| `allMatching` | src/libgit2/attr.c:81-83, 157-159, 265-267 |
| `getValue` | src/libgit2/attr.c:77-93 |
| `manyRule` | src/libgit2/attr.c:161-181 |
| `manyLoop` | src/libgit2/attr.c:157-188 |
| `getMany` | src/libgit2/attr.c:129-130, 154-188 |
| `foreachAssigns` | src/libgit2/attr.c:269-283 |
| `foreachLoop` | src/libgit2/attr.c:265-285 |
| `Key` | src/libgit2/attrcache.c:185-243 |
| `Cache` | src/libgit2/attrcache.c:19-28 |
| `textOf` | src/libgit2/attr_file.c:108-235 |
| `contextOf` | src/libgit2/attr_file.c:352-355 |
| `cacheGet` | src/libgit2/attrcache.c:245-303; attr_file.c:106-267 |
| `cacheGetAll` | src/libgit2/attr.c:374-422, 559-581, 605-672 |
| `Options` | include/git2/attr.h:91-147 |
| `extraPlaces` | src/libgit2/attr.c:405-419, 515-519 |
| `decideSources` | src/libgit2/attr.c:486-522 |
| `setupKeys` | src/libgit2/attr.c:378-430 |
| `collectKeys` | src/libgit2/attr.c:596-681 |
| `initCache` | src/libgit2/attrcache.c:400-449; attr.c:432-468 |
| `collectFiles` | src/libgit2/attr.c:596-681 |
| `attrGet` | src/libgit2/attr.c:47-99 |
| `attrGetMany` | src/libgit2/attr.c:119-196 |
| `attrForeach` | src/libgit2/attr.c:236-295 |

## Base64

| definition | cites |
|---|---|
| `enc64` | src/util/str.c:246-247 |
| `dec64` | src/util/str.c:292-309 |
| `enc85` | src/util/str.c:348-349 |
| `dec85` | src/util/str.c:391-408 |
| `tab` | src/util/str.c:246-247, 292-309, 348-349, 391-408 |
| `encode64` | src/util/str.c:249-289 |
| `loop64` | src/util/str.c:327-343 |
| `decode64` | src/util/str.c:311-346 |
| `acc85` | src/util/str.c:362-371 |
| `digits85` | src/util/str.c:373-381 |
| `encode85` | src/util/str.c:351-388 |
| `four85` | src/util/str.c:431-438 |
| `bytes85` | src/util/str.c:453-456 |
| `group85` | src/util/str.c:428-449 |
| `loop85` | src/util/str.c:427-457 |
| `decode85` | src/util/str.c:410-470 |

## Cache

| definition | cites |
|---|---|
| `Obj` | src/libgit2/cache.h:25-31 |
| `ANY` | src/libgit2/cache.h:19-23 |
| `RAW` | src/libgit2/cache.h:21 |
| `PARSED` | src/libgit2/cache.h:22 |
| `World` | cache.h:35-39; cache.c:21-34 |
| `incref` | src/libgit2/cache.h:59-63 |
| `decref` | src/libgit2/cache.c:239-258 |
| `decrefAll` | src/libgit2/cache.c:69-70 |
| `clearCache` | src/libgit2/cache.c:60-74 |
| `iterate` | src/util/hashmap.h:346-359 |
| `evictLoop` | src/libgit2/cache.c:114-129 |
| `evictCount` | src/libgit2/cache.c:100-105 |
| `evictEntries` | src/libgit2/cache.c:100-130 |
| `shouldStore` | src/libgit2/cache.c:132-136 |
| `cacheGet` | src/libgit2/cache.c:138-156 |
| `insertEntry` | src/libgit2/cache.c:180-186 |
| `replaceEntry` | src/libgit2/cache.c:188-206 |
| `relieve` | src/libgit2/cache.c:178-180 |
| `storeLocked` | src/libgit2/cache.c:176-209 |
| `cacheStore` | src/libgit2/cache.c:158-210 |
| `store` | src/libgit2/cache.c:212-222 |
| `cacheClear` | src/libgit2/cache.c:76-84 |
| `Op` | src/libgit2/cache.c:76, 212-236 |
| `step` | src/libgit2/cache.c:76-89, 212-257 |

## Checkout

| definition | cites |
|---|---|
| `modeTree` | include/git2/types.h |
| `modeBlob` | include/git2/types.h:239 |
| `modeExec` | include/git2/types.h:240 |
| `modeLink` | include/git2/types.h:241 |
| `modeCommit` | include/git2/types.h:242 |
| `Strategy` | include/git2/checkout.h:113-206 |
| `Action` | src/libgit2/checkout.c:38-48 |
| `Action.REMOVE` | src/libgit2/checkout.c:40 |
| `Action.UPDATE_BLOB` | src/libgit2/checkout.c:41 |
| `Action.CONFLICT` | src/libgit2/checkout.c:43 |
| `Action.REMOVE_AND_UPDATE` | src/libgit2/checkout.c:47-48 |
| `Action.NONE` | src/libgit2/checkout.c:39 |
| `DFile` | include/git2/diff.h |
| `Status` | include/git2/diff.h:224-236 |
| `Delta` | src/libgit2/diff_generate.c:47-53 |
| `IdxEntry` | include/git2/index.h:58-75; src/libgit2/checkout.c:205-221 |
| `Over` | src/libgit2/iterator.c:1777-1870 |
| `Wd` | include/git2/index.h:58-75 |
| `Why` | include/git2/checkout.h:224-255 |
| `Data` | src/libgit2/checkout.c:51-77 |
| `checkoutNotify` | src/libgit2/checkout.c:91-149 |
| `baseOrNew` | src/libgit2/checkout.c:151-158 |
| `filemodeChanged` | src/libgit2/checkout.c:160-174 |
| `isWorkdirModified` | src/libgit2/checkout.c:176-249 |
| `isGitlink` | src/util/posix.h:19 |
| `isExec` | src/util/futils.h:282 |
| `commonBits` | src/libgit2/checkout.c:262-277 |
| `actionCommon` | src/libgit2/checkout.c:254-286 |
| `actionNoWd` | src/libgit2/checkout.c:288-325 |
| `removable` | src/libgit2/checkout.c:343-355 |
| `advance` | src/libgit2/iterator.c:1596-1653 |
| `advanceInto` | src/libgit2/iterator.c:1655-1692 |
| `actionWdOnly` | src/libgit2/checkout.c:365-459 |
| `actionWithWd` | src/libgit2/checkout.c:491-562 |
| `actionBlocker` | src/libgit2/checkout.c:564-598 |
| `actionDir` | src/libgit2/checkout.c:600-653 |
| `actionDirEmpty` | src/libgit2/checkout.c:655-667 |
| `checkoutAction` | src/libgit2/checkout.c:669-776 |
| `remaining` | src/libgit2/checkout.c:778-793 |
| `verifyPaths` | src/libgit2/checkout.c:1288-1310 |
| `actionsLoop` | src/libgit2/checkout.c:1347-1365 |
| `getActions` | src/libgit2/checkout.c:1312-1381 |
| `Files` | src/libgit2/checkout.c:1496-2200 |
| `rmdirR` | src/util/futils.c:746-889 |
| `writeBlob` | src/libgit2/checkout.c:1786-1817 |
| `removeOld` | src/libgit2/checkout.c:1819-1876 |
| `createNew` | src/libgit2/checkout.c:1878-1905 |
| `checkout` | src/libgit2/checkout.c:2555-2696 |

## Commit

| definition | cites |
|---|---|
| `parseOidHeader` | src/libgit2/object.c:644-671 |
| `writeOidHeader` | src/libgit2/object.c:673-692 |
| `writeParents` | src/libgit2/commit.c:62-66 |
| `createBuffer` | src/libgit2/commit.c:45-85 |
| `Commit` | src/libgit2/commit.h:19-34 |
| `parseParents` | src/libgit2/commit.c:431-438 |
| `skipAuthors` | src/libgit2/commit.c:448-455 |
| `parseHeaders` | src/libgit2/commit.c:467-486 |
| `parseTree` | src/libgit2/commit.c:415-429 |
| `parseAuthor` | src/libgit2/commit.c:440-446 |
| `commitParse` | src/libgit2/commit.c:394-507 |
| `isspace` | src/util/ctype_compat.h:43-46 |
| `isspaceNonlf` | src/util/util.h:243-246 |
| `message` | src/libgit2/commit.c:586-599 |
| `paragraphEnd` | src/libgit2/commit.c:611-624 |
| `summaryLoop` | src/libgit2/commit.c:610-647 |
| `summary` | src/libgit2/commit.c:601-655 |
| `skipSummary` | src/libgit2/commit.c:661-664 |
| `body` | src/libgit2/commit.c:657-682 |
| `ENOTFOUND` | include/git2/errors.h |
| `EMODIFIED` | include/git2/errors.h:51 |
| `continuation` | src/libgit2/commit.c:794-802 |
| `headerField` | src/libgit2/commit.c:755-816 |
| `extract` | src/libgit2/commit.c:874-915 |
| `extractSignature` | src/libgit2/commit.c:841-937 |
| `formatLines` | src/libgit2/commit.c:1002-1006 |
| `formatHeaderField` | src/libgit2/commit.c:991-1012 |
| `splitHeader` | src/libgit2/commit.c:1051-1061 |
| `withSignature` | src/libgit2/commit.c:1022-1087 |
| `World` | src/libgit2/commit.c:126-186 |
| `Created` | src/libgit2/commit.c:126-186 |
| `validateTreeAndParents` | src/libgit2/commit.c:87-124 |
| `writeCommit` | src/libgit2/commit.c:155-184 |
| `createInternal` | src/libgit2/commit.c:126-187 |

## CommitGraph

| definition | cites |
|---|---|
| `MISSING` | src/libgit2/commit_graph.c:21 |
| `GENMAX` | src/libgit2/commit_graph.c:22 |
| `Kind` | src/libgit2/commit_graph.c:37-42, 211-213 |
| `kindOf` | src/libgit2/commit_graph.c:255-284 |
| `Chunk` | src/libgit2/commit_graph.c:44-47 |
| `Chunks` | src/libgit2/commit_graph.c:211-213 |
| `setLen` | src/libgit2/commit_graph.c:251-252, 286 |
| `setOff` | src/libgit2/commit_graph.c:257 |
| `chunkLoop` | src/libgit2/commit_graph.c:244-285 |
| `File` | src/libgit2/commit_graph.h:29-64 |
| `parseFanout` | src/libgit2/commit_graph.c:110-133 |
| `lookupLoop` | src/libgit2/commit_graph.c:153-159 |
| `parseLookup` | src/libgit2/commit_graph.c:135-162 |
| `parseData` | src/libgit2/commit_graph.c:164-181 |
| `parseEdges` | src/libgit2/commit_graph.c:183-197 |
| `parse` | src/libgit2/commit_graph.c:199-302 |
| `openGraph` | src/libgit2/commit_graph.c:344-393 |
| `Entry` | src/libgit2/commit_graph.h:70-94 |
| `countExtra` | src/libgit2/commit_graph.c:528-536 |
| `getByIndex` | src/libgit2/commit_graph.c:488-541 |
| `entryFind` | src/libgit2/commit_graph.c:575-631 |
| `entryParent` | src/libgit2/commit_graph.c:633-657 |
| `Commit` | src/libgit2/commit_graph.c:51-59 |
| `commitCmp` | src/libgit2/commit_graph.c:689-694 |
| `uniq` | src/util/vector.c:270-291 |
| `indexOf` | src/libgit2/commit_graph.c:883-889 |
| `parentIndices` | src/libgit2/commit_graph.c:903-917 |
| `allIndices` | src/libgit2/commit_graph.c:891-918 |
| `St` | src/libgit2/commit_graph.c:863-868 |
| `Gen` | src/libgit2/commit_graph.c:872-880 |
| `pushParents` | src/libgit2/commit_graph.c:990-999 |
| `genStep` | src/libgit2/commit_graph.c:947-1000 |
| `genLoop` | src/libgit2/commit_graph.c:944-1001 |
| `generations` | src/libgit2/commit_graph.c:920-1001 |
| `fanCount` | src/libgit2/commit_graph.c:1123-1126 |
| `fanTable` | src/libgit2/commit_graph.c:1121-1128 |
| `word` | src/libgit2/commit_graph.c:1160 |
| `edgeWords` | src/libgit2/commit_graph.c:1180-1190 |
| `word0` | src/libgit2/commit_graph.c:1156-1161 |
| `word1` | src/libgit2/commit_graph.c:1166-1173 |
| `dataRow` | src/libgit2/commit_graph.c:1149-1174, 1194-1203 |
| `dataLoop` | src/libgit2/commit_graph.c:1141-1206 |
| `chunkHeader` | src/libgit2/commit_graph.c:1028-1039 |
| `body` | src/libgit2/commit_graph.c:1208-1253 |
| `write` | src/libgit2/commit_graph.c:1073-1272 |

## ConfigFile

| definition | cites |
|---|---|
| `lineOf` | src/util/util.c:324-328; src/libgit2/parse.c:26-36 |
| `afterLine` | src/libgit2/parse.c:36-42 |
| `skipWs` | src/libgit2/parse.c:65-79 |
| `firstChar` | src/libgit2/config_parse.c:514-516; src/libgit2/parse.c:118-139 |
| `isalnum` | src/util/ctype_compat.h:38-41 |
| `keychar` | src/libgit2/config_parse.c:28-31 |
| `rtrim` | src/libgit2/config_parse.c:55-58 |
| `stripLoop` | src/libgit2/config_parse.c:38-53 |
| `stripComments` | src/libgit2/config_parse.c:33-62 |
| `endSub` | src/libgit2/config_parse.c:139-151 |
| `subLoop` | src/libgit2/config_parse.c:104-137 |
| `parseSub` | src/libgit2/config_parse.c:65-158 |
| `secLoop` | src/libgit2/config_parse.c:191-211 |
| `lineStr` | src/libgit2/config_parse.c:169-172 |
| `parseHeaderStr` | src/libgit2/config_parse.c:174-228 |
| `parseHeader` | src/libgit2/config_parse.c:160-228 |
| `escaped` | src/libgit2/config_parse.c:12-13 |
| `consTo` | src/libgit2/config_parse.c:306 |
| `unescape` | src/libgit2/config_parse.c:283-327 |
| `Val` | src/libgit2/config_parse.c:329-382, 423-478 |
| `multi` | src/libgit2/config_parse.c:329-382 |
| `parseName` | src/libgit2/config_parse.c:389-421 |
| `parseValue` | src/libgit2/config_parse.c:447-466 |
| `Var` | src/libgit2/config_parse.c:423-478 |
| `parseVariable` | src/libgit2/config_parse.c:423-478 |
| `Event` | src/libgit2/config_parse.h:27-55 |
| `LineRes` | src/libgit2/config_parse.c:491-581 |
| `varLine` | src/libgit2/config_parse.c:558-565 |
| `consEvent` | src/libgit2/config_parse.c:491-581 |
| `parseLine` | src/libgit2/config_parse.c:498-569 |
| `prepend` | src/libgit2/config_parse.c:491-581 |
| `parseLoop` | src/libgit2/config_parse.c:498-577 |
| `skipBom` | src/libgit2/config_parse.c:229-241; src/util/str.c:1274-1298 |
| `parse` | src/libgit2/config_parse.c:491-581 |
| `Entry` | include/git2/config.h:103-124 |
| `fullName` | src/libgit2/config_file.c:780-790 |
| `entryOf` | src/libgit2/config_file.c:764-833 |
| `readEntries` | src/libgit2/config_file.c:835-875 |
| `listGet` | src/libgit2/config_list.c:162-206 |
| `escapeOf` | src/libgit2/config_file.c:548; src/libgit2/config_parse.c:12-13 |
| `escapeChar` | src/libgit2/config_file.c:548-553 |
| `escapeValue` | src/libgit2/config_file.c:533-562 |
| `quotesFor` | src/libgit2/config_file.c:937-953 |
| `valueLine` | src/libgit2/config_file.c:990-992 |
| `sectionLine` | src/libgit2/config_file.c:907-935 |
| `withNl` | src/libgit2/config_file.c:968-976 |
| `Target` | src/libgit2/config_file.c:954-965 |
| `WState` | src/libgit2/config_file.c:954-965 |
| `writeValue` | src/libgit2/config_file.c:983-1000 |
| `leaveSection` | src/libgit2/config_file.c:1018-1020 |
| `onSection` | src/libgit2/config_file.c:1002-1036 |
| `matches` | src/libgit2/config_file.c:1063-1069; src/util/regexp.c:34-40 |
| `onVariable` | src/libgit2/config_file.c:1038-1084 |
| `onComment` | src/libgit2/config_file.c:1086-1094 |
| `onEvent` | src/libgit2/config_file.c:1002-1094 |
| `onEvents` | src/libgit2/config_file.c:1002-1094, 1182 |
| `eofHeader` | src/libgit2/config_file.c:1117-1118 |
| `onEof` | src/libgit2/config_file.c:1096-1125 |
| `sectionPart` | src/libgit2/config_file.c:1168-1176 |
| `namePart` | src/libgit2/config_file.c:1168-1176 |
| `fileWrite` | src/libgit2/config_file.c:1130-1203 |
| `sectionOk` | src/libgit2/config.c:1517-1538 |
| `normalizeName` | src/libgit2/config.c:1542-1575 |
| `set` | src/libgit2/config_file.c:294-334 |
| `delete` | src/libgit2/config_file.c:392-420 |
| `setMultivar` | src/libgit2/config_file.c:364-388 |
| `deleteMultivar` | src/libgit2/config_file.c:422-454 |

## ConfigLevels

| definition | cites |
|---|---|
| `ENOTFOUND` | include/git2/errors.h |
| `EEXISTS` | include/git2/errors.h:33 |
| `EREADONLY` | include/git2/errors.h:72 |
| `XDG` | include/git2/config.h:64,70,97 |
| `GLOBAL` | include/git2/config.h:70 |
| `HIGHEST` | include/git2/config.h:97 |
| `Source` | config_file.c; config_snapshot.c |
| `Backend` | include/git2/sys/config.h:70-100 |
| `Store` | src/libgit2/config.c:30-49 |
| `readAll` | src/libgit2/config_file.c:255-285; src/libgit2/config_snapshot.c:26-43 |
| `backendGet` | src/libgit2/config_file.c:339-361; src/libgit2/config_snapshot.c:45-70 |
| `backendSet` | src/libgit2/config_file.c:294-334; src/libgit2/config_snapshot.c:72-79 |
| `backendDel` | src/libgit2/config_file.c:392-416; src/libgit2/config_snapshot.c:101-107 |
| `BEntry` | src/libgit2/config.c:36-49 |
| `EVec` | src/util/vector.h:19-25 |
| `Config` | src/libgit2/config.h:24-28 |
| `readerCmp` | src/libgit2/config.c:94-100 |
| `writerCmp` | src/libgit2/config.c:102-108 |
| `new` | src/libgit2/config.c:110-127; src/util/vector.c:106-117 |
| `vecSort` | src/util/vector.c:185-193 |
| `insertSorted` | src/util/vector.c:150-183 |
| `removeLevel` | src/libgit2/config.c:268-285 |
| `tryRemove` | src/libgit2/config.c:261-288; src/util/vector.c:245-262 |
| `addInstance` | src/libgit2/config.c:290-321 |
| `addBackend` | src/libgit2/config.c:362-392; src/libgit2/config_file.c:103-122 |
| `orderOf` | src/libgit2/config.c:403-414 |
| `setWriteorder` | src/libgit2/config.c:394-422 |
| `findByLevel` | src/libgit2/config.c:216-249 |
| `openLevel` | src/libgit2/config.c:337-360 |
| `openGlobal` | src/libgit2/config.c:323-335 |
| `getLoop` | src/libgit2/config.c:806-817 |
| `get` | src/libgit2/config.c:780-833 |
| `iterLoop` | src/libgit2/config.c:431-487 |
| `iterate` | src/libgit2/config.c:531-546 |
| `multivarLoop` | src/libgit2/config.c:1096-1115 |
| `getMultivar` | src/libgit2/config.c:1057-1086, 1129-1164 |
| `getWriter` | src/libgit2/config.c:658-674 |
| `upd` | src/libgit2/config.c:683-731 |
| `setString` | src/libgit2/config.c:710-731 |
| `deleteEntry` | src/libgit2/config.c:683-691 |
| `snapshotLoop` | src/libgit2/config.c:195-206; config_snapshot.c:143-182 |
| `snapshot` | src/libgit2/config.c:182-214 |

## ConfigVal

| definition | cites |
|---|---|
| `times1024` | src/libgit2/config.c:1465 |
| `scale` | src/libgit2/config.c:1462-1475 |
| `withSuffix` | src/libgit2/config.c:1462-1491 |
| `parseInt64` | src/libgit2/config.c:1454-1495 |
| `truncate32` | src/libgit2/config.c:1505 |
| `parseInt32` | src/libgit2/config.c:1497-1515 |
| `toLower` | src/util/util.c:162-167 |
| `caseEq` | src/util/util.c:162-167; src/libgit2/config.c:1408 |
| `utilParseBool` | src/util/util.c:634-653 |
| `parseBool` | src/libgit2/config.c:1440-1452 |
| `MapType` | include/git2/config.h:152-172 |
| `MapEntry` | include/git2/config.h:160-164 |
| `mapOne` | src/libgit2/config.c:1386-1413 |
| `lookupMapValue` | src/libgit2/config.c:1378-1418 |

## Crlf

| definition | cites |
|---|---|
| `toLfLoop` | src/util/str.c:1139-1150 |
| `crlfToLf` | src/util/str.c:1119-1164 |
| `toCrlfLoop` | src/util/str.c:1185-1204 |
| `lfToCrlf` | src/util/str.c:1166-1208 |
| `Stats` | src/util/str.h |
| `countLoop` | src/util/str.c:1341-1367 |
| `gather` | src/util/str.c:1322-1372 |
| `Action` | src/libgit2/crlf.c:21-30 |
| `Attr` | include/git2/attr.h:37-85 |
| `AutoCrlf` | src/libgit2/repository.h:79-82 |
| `SafeCrlf` | src/libgit2/repository.h:74-76 |
| `Eol` | src/libgit2/repository.h:85-93 |
| `checkCrlf` | src/libgit2/crlf.c:45-59 |
| `checkEol` | src/libgit2/crlf.c:61-71 |
| `Config` | src/libgit2/repository.h:88-92 |
| `Attrs` | src/libgit2/crlf.c:32-39 |
| `textEolIsCrlf` | src/libgit2/crlf.c:115-128 |
| `outputEol` | src/libgit2/crlf.c:130-151 |
| `isAuto` | crlf.c; src/libgit2/crlf.c:226-228 |
| `Entry` | src/libgit2/crlf.c:73-113 |
| `hasCrInIndex` | src/libgit2/crlf.c:73-113 |
| `checkSafe` | src/libgit2/crlf.c:153-206 |
| `toOdb` | src/libgit2/crlf.c:208-251; src/libgit2/filter.c:942-943 |
| `toWorkdir` | src/libgit2/crlf.c:253-285 |
| `applyEol` | src/libgit2/crlf.c:316-328 |
| `byConfig` | src/libgit2/crlf.c:335-342 |
| `Values` | src/libgit2/crlf.c:287-345 |
| `convertAttrs` | src/libgit2/crlf.c:287-345 |
| `clean` | src/libgit2/crlf.c:347-390 |
| `smudge` | src/libgit2/crlf.c:253-285, 347-390 |

## Delta

| definition | cites |
|---|---|
| `HASH_LIMIT` | src/libgit2/delta.c:11 |
| `RABIN_SHIFT` | src/libgit2/delta.c:13-14 |
| `RABIN_WINDOW` | src/libgit2/delta.c:14 |
| `MAX_OP_SIZE` | src/libgit2/delta.c:268 |
| `UINT_MAX` | limits.h; src/libgit2/delta.c:289-291 |
| `roll` | src/libgit2/delta.c:198 |
| `rollAll` | src/libgit2/delta.c:197-198 |
| `Entry` | src/libgit2/delta.c:108-112 |
| `Index` | src/libgit2/delta.c:114-120 |
| `Pop` | src/libgit2/delta.c:196-218 |
| `popStep` | src/libgit2/delta.c:196-211 |
| `populate` | src/libgit2/delta.c:191-213 |
| `cullSkip` | src/libgit2/delta.c:235-237 |
| `cull` | src/libgit2/delta.c:231-239 |
| `hashBits` | src/libgit2/delta.c:172-174 |
| `numEntries` | src/libgit2/delta.c:164-171 |
| `indexInit` | src/libgit2/delta.c:145-250 |
| `hdrBytes` | src/libgit2/delta.c:305-310 |
| `matchLen` | src/libgit2/delta.c:352-353 |
| `scan` | src/libgit2/delta.c:342-361 |
| `St` | src/libgit2/delta.c:276-283 |
| `put` | src/libgit2/delta.c:297-440 |
| `insertStep` | src/libgit2/delta.c:365-374 |
| `Back` | src/libgit2/delta.c:376-391 |
| `backLoop` | src/libgit2/delta.c:380-392 |
| `byteOf` | src/libgit2/delta.c:393-414 |
| `copyOp` | src/libgit2/delta.c:403-420 |
| `flushInsert` | src/libgit2/delta.c:379-395 |
| `copyStep` | src/libgit2/delta.c:375-429 |
| `searchStep` | src/libgit2/delta.c:335-362 |
| `growStep` | src/libgit2/delta.c:431-443 |
| `loopStep` | src/libgit2/delta.c:335-443 |
| `mainLoop` | src/libgit2/delta.c:334-444 |
| `EBUFS` | include/git2/errors.h |
| `initState` | src/libgit2/delta.c:293-333 |
| `createFromIndex` | src/libgit2/delta.c:270-456 |
| `create` | src/libgit2/delta.h:62-85 |
| `hdrSz` | src/libgit2/delta.c:465-487 |
| `readHeader` | src/libgit2/delta.c:489-500 |
| `addDelta` | src/libgit2/delta.c:575 |
| `copyArgs` | src/libgit2/delta.c:573-585 |
| `applyOne` | src/libgit2/delta.c:568-608 |
| `applyLoop` | src/libgit2/delta.c:568-614 |
| `apply` | src/libgit2/delta.c:534-628 |

## FetchHead

| definition | cites |
|---|---|
| `refCmp` | src/libgit2/fetchhead.c:20-38 |
| `headsDir` | src/libgit2/refs.h:21 |
| `tagsDir` | src/libgit2/refs.h:22 |
| `lineFor` | src/libgit2/fetchhead.c:134-139 |
| `describe` | src/libgit2/fetchhead.c:117-139 |
| `writeRef` | src/libgit2/fetchhead.c:104-140 |
| `writeRefs` | src/libgit2/fetchhead.c:164-165 |
| `write` | src/libgit2/fetchhead.c:142-168 |
| `strsep` | src/util/util.c:307-322 |
| `strstrQuote` | src/libgit2/fetchhead.c:244 |
| `parseOid` | src/libgit2/fetchhead.c:197-210 |
| `splitDesc` | src/libgit2/fetchhead.c:234-241 |
| `joinName` | src/libgit2/fetchhead.c:262-265; src/util/str.c:760-807 |
| `orNull` | src/libgit2/fetchhead.c:304-307 |
| `parseDesc` | src/libgit2/fetchhead.c:228-265, 304-307 |
| `parseRest` | src/libgit2/fetchhead.c:212-257 |
| `parse` | src/libgit2/fetchhead.c:170-270 |
| `foreachLoop` | src/libgit2/fetchhead.c:297-321 |
| `foreach` | src/libgit2/fetchhead.c:272-329 |

## FileBuf

| definition | cites |
|---|---|
| `Path` | src/util/filebuf.h |
| `Ino` | src/util/posix.h |
| `Event` | src/util/filebuf.c:276 |
| `FS` | src/util/posix.c |
| `CreatRes` | src/util/posix.c:108-133 |
| `ReadRes` | src/util/futils.c:148-300 |
| `UnlinkRes` | src/util/unix/posix.h:43 |
| `Faults` | (auxiliary) |
| `StatRes` | src/util/unix/posix.h |
| `Cmd` | src/util/filebuf.c; futils.c; posix.c |
| `R` | src/util/posix.c:200-225; src/util/filebuf.c; futils.c; posix.c |
| `upd` | (auxiliary) |
| `FS.content` | (auxiliary) |
| `xCreat` | src/util/posix.c:108-133 |
| `xWrite` | src/util/posix.c:200-225 |
| `xFsync` | src/util/filebuf.c:435 |
| `xRename` | src/util/posix.c:153-164 |
| `xUnlink` | src/util/filebuf.c:107 |
| `xStat` | src/util/futils.c:238 |
| `xReadN` | src/util/futils.c:148-183 |
| `xReadAll` | src/util/filebuf.c:66-95 |
| `exec` | src/util/posix.c:108-225; unix/posix.h |
| `P` | (auxiliary) |
| `sExist` | src/util/filebuf.c:46, 106 |
| `sCreat` | src/util/filebuf.c:54-63 |
| `sWrite` | src/util/filebuf.c:147 |
| `sFsync` | src/util/filebuf.c:435 |
| `sClose` | src/util/filebuf.c:103-104, 440 |
| `sRename` | src/util/filebuf.c:447 |
| `sFsyncParent` | src/util/filebuf.c:452 |
| `sUnlink` | src/util/filebuf.c:106-107 |
| `sStat` | src/util/futils.c:238 |
| `sReadN` | src/util/futils.c:256 |
| `sReadAll` | src/util/filebuf.c:72-95 |
| `sEvent` | (auxiliary) |
| `ELOCKED` | include/git2/errors.h:50 |
| `lockPath` | src/util/filebuf.h:29 |
| `Opts` | src/util/filebuf.h:20-27 |
| `FB` | src/util/filebuf.h:33-56 |
| `fbInit` | src/util/filebuf.c:299-318 |
| `closeFd` | src/util/filebuf.c:103-104 |
| `dropLock` | src/util/filebuf.c:106-106 |
| `cleanup` | src/util/filebuf.c:101-130 |
| `appendCopy` | src/util/filebuf.c:70-96 |
| `lockFile` | src/util/filebuf.c:44-99 |
| `fbOpen` | src/util/filebuf.c:276-392 |
| `writeNormal` | src/util/filebuf.c:144-157 |
| `flushBuffer` | src/util/filebuf.c:132-137 |
| `writeLoop` | src/util/filebuf.c:480-495 |
| `fbWrite` | src/util/filebuf.c:471-496 |
| `fbPrintf` | src/util/filebuf.c:550-568; src/util/filebuf.c:570-590 |
| `commitFail` | src/util/filebuf.c:460-462 |
| `syncParent` | src/util/filebuf.c:452-453 |
| `syncFile` | src/util/filebuf.c:435-438 |
| `commitRename` | src/util/filebuf.c:447-459 |
| `commitTail` | src/util/filebuf.c:429-459 |
| `fbCommit` | src/util/filebuf.c:421-463 |
| `Job` | src/util/filebuf.h |
| `writeAll` | src/util/filebuf.c:471-496 |
| `Job.run` | src/util/filebuf.c:276-496 |

## Grafts

| definition | cites |
|---|---|
| `Map` | src/libgit2/grafts.c:15 |
| `Grafts` | src/libgit2/grafts.c:17-27 |
| `advanceOid` | src/libgit2/parse.c:104-116 |
| `advanceExpected` | src/libgit2/parse.c:50-63 |
| `parentsLoop` | src/libgit2/grafts.c:159-168 |
| `add` | src/libgit2/grafts.c:183-235 |
| `parseLoop` | src/libgit2/grafts.c:151-180 |
| `parse` | src/libgit2/grafts.c:142-181 |
| `new` | src/libgit2/grafts.c:29-42 |
| `refresh` | src/libgit2/grafts.c:110-140; src/util/futils.c:221-296 |
| `lookAll` | src/libgit2/grafts.c:110-140 |
| `openOrRefresh` | src/libgit2/grafts.c:44-79 |
| `oids` | src/libgit2/grafts.c:243-265 |
| `Repo` | src/libgit2/repository.h:165-166 |
| `openBoth` | src/libgit2/repository.c:906-919 |
| `loadGrafts` | src/libgit2/repository.c:879-920 |
| `openRepo` | src/libgit2/repository.c:1155-1156 |
| `refreshRoots` | src/libgit2/repository.c:3798-3804 |
| `shallowRoots` | src/libgit2/repository.c:3788-3805 |
| `rootsText` | src/libgit2/repository.c:3826-3830 |
| `afterWrite` | src/libgit2/repository.c:3834-3840 |
| `shallowRootsWrite` | src/libgit2/repository.c:3807-3846 |
| `isShallow` | src/libgit2/repository.c:3848-3869 |
| `get` | src/libgit2/grafts.c:237-241 |
| `commitParents` | src/libgit2/commit.c:548-567, 532-546 |
| `event` | src/libgit2/fetch.c:196-199, 223 |
| `events` | src/libgit2/fetch.c:196-199, 223 |
| `Looked` | src/libgit2/grafts.c:110-140 |

## Graph

| definition | cites |
|---|---|
| `Repo` | src/libgit2/commit_list.c:170-218 |
| `Flags` | src/libgit2/commit_list.h:14-18 |
| `Marks` | src/libgit2/commit_list.h:35 |
| `noFlags` | src/libgit2/commit_list.h:14-18 |
| `clean` | src/libgit2/commit_list.h:35 |
| `Flags.or` | src/libgit2/merge.c:422-438 |
| `Flags.has` | src/libgit2/merge.c:430 |
| `Flags.any` | src/libgit2/merge.c:337 |
| `upd` | (auxiliary) |
| `timeCmp` | src/libgit2/commit_list.c:33-44 |
| `generationCmp` | src/libgit2/commit_list.c:15-31 |
| `State` | src/libgit2/merge.c:379-447; src/libgit2/graph.c:33-105 |
| `passed` | src/libgit2/merge.c:418-427; src/libgit2/graph.c:66-72 |
| `paintParents` | src/libgit2/merge.c:427-442; src/libgit2/graph.c:74-85 |
| `isResult` | src/libgit2/merge.c:419-425 |
| `visit` | src/libgit2/merge.c:410-441 |
| `interesting` | src/libgit2/merge.c:315-326 |
| `paintLoop` | src/libgit2/merge.c:411-443; src/libgit2/graph.c:60-92 |
| `paintTwos` | src/libgit2/merge.c:402-408 |
| `paintFuel` | (auxiliary) |
| `paintDown` | src/libgit2/merge.c:379-447 |
| `clearLoop` | src/libgit2/merge.c:328-349, 351-377 |
| `edges` | (auxiliary) |
| `clearMarks` | src/libgit2/merge.c:349-377 |
| `insertByDate` | src/libgit2/commit_list.c:62-75 |
| `workOf` | src/libgit2/merge.c:477-485 |
| `redundantStep` | src/libgit2/merge.c:468-505 |
| `redundantLoop` | src/libgit2/merge.c:462-505 |
| `removeRedundant` | src/libgit2/merge.c:449-515 |
| `basesMany` | src/libgit2/merge.c:517-586 |
| `ENOTFOUND` | include/git2/errors.h:32 |
| `mergeBases` | src/libgit2/merge.c:220-313 |
| `mergeBase` | src/libgit2/merge.c:265-279 |
| `mergeBasesMany` | src/libgit2/merge.c:82-191 |
| `octopusLoop` | src/libgit2/merge.c:205-213 |
| `octopus` | src/libgit2/merge.c:193-218 |
| `reachableFromAny` | src/libgit2/graph.c:185-249 |
| `descendantOf` | src/libgit2/graph.c:177-183 |
| `interestingRoots` | src/libgit2/graph.c:14-32 |
| `markParents` | src/libgit2/graph.c:33-105 |
| `pushAll` | src/libgit2/graph.c:133-137 |
| `countLoop` | src/libgit2/graph.c:123-139 |
| `countAB` | src/libgit2/graph.c:108-144 |
| `aheadBehind` | src/libgit2/graph.c:146-175 |

## HashMap

| definition | cites |
|---|---|
| `Flag` | src/util/hashmap.h:47-49 |
| `Map` | src/util/hashmap.h:66-73 |
| `init` | src/util/hashmap.h:42 |
| `upd` | (auxiliary) |
| `upperBound` | src/util/hashmap.h:163 |
| `probeStop` | src/util/hashmap.h:115-116 |
| `idxLoop` | src/util/hashmap.h:115-123 |
| `idx` | src/util/hashmap.h:105-128 |
| `get` | src/util/hashmap.h:325-332 |
| `contains` | src/util/hashmap.h:129-133 |
| `remove` | src/util/hashmap.h:134-150 |
| `Rehash` | src/util/hashmap.h:175-235 |
| `freeSlot` | src/util/hashmap.h:203-204 |
| `kickStep` | src/util/hashmap.h:199-227 |
| `kick` | src/util/hashmap.h:197-228 |
| `rehashStep` | src/util/hashmap.h:188-229 |
| `rehashLoop` | src/util/hashmap.h:187-230 |
| `roundupLoop` | src/util/hashmap.h:57-58 |
| `roundup` | src/util/hashmap.h:57 |
| `resize` | src/util/hashmap.h:151-240 |
| `putLoop` | src/util/hashmap.h:262-278 |
| `grow` | src/util/hashmap.h:244-253 |
| `store` | src/util/hashmap.h:280-298 |
| `put` | src/util/hashmap.h:241-301 |
| `clear` | src/util/hashmap.h:302-308 |
| `entries` | src/util/hashmap.h:346-359 |
| `setIterLoop` | src/util/hashmap.h:388-396 |
| `setIterate` | src/util/hashmap.h:394-403 |

## Hashsig

| definition | cites |
|---|---|
| `Opts` | include/git2/sys/hashsig.h:35-55 |
| `Heap` | src/libgit2/hashsig.c:33-37 |
| `heapSize` | src/libgit2/hashsig.c:26 |
| `heapInit` | src/libgit2/hashsig.c:50-55 |
| `cmp` | src/libgit2/hashsig.c:57-69 |
| `val` | src/libgit2/hashsig.c:71-129 |
| `put` | src/libgit2/hashsig.c:71-129 |
| `heapUp` | src/libgit2/hashsig.c:71-83 |
| `heapDown` | src/libgit2/hashsig.c:85-108 |
| `heapInsert` | src/libgit2/hashsig.c:116-131 |
| `place` | src/libgit2/hashsig.c:113 |
| `heapSort` | src/libgit2/hashsig.c:110-114 |
| `Work` | src/libgit2/hashsig.c:40-45 |
| `insert` | src/libgit2/hashsig.c:203-204 |
| `isspaceNonlf` | src/util/util.h:243-246 |
| `peek` | src/libgit2/hashsig.c:174-182 |
| `skip` | src/libgit2/hashsig.c:176-182 |
| `passOver` | src/libgit2/hashsig.c:176-182 |
| `Run` | src/libgit2/hashsig.c:160-171 |
| `runLoop` | src/libgit2/hashsig.c:172-200 |
| `hashLoop` | src/libgit2/hashsig.c:168-212 |
| `addHashes` | src/libgit2/hashsig.c:160-215 |
| `HSig` | src/libgit2/hashsig.c:39-44 |
| `finalize` | src/libgit2/hashsig.c:217-230 |
| `create` | src/libgit2/hashsig.c:136-158 |
| `blocks` | src/libgit2/hashsig.c:294-303 |
| `createFromFile` | src/libgit2/hashsig.c:272-316 |
| `matchLoop` | src/libgit2/hashsig.c:331-341 |
| `heapCompare` | src/libgit2/hashsig.c:323-344 |
| `compare` | src/libgit2/hashsig.c:346-375 |

## Ignore

| definition | cites |
|---|---|
| `nextLine` | src/util/util.h:88-93 |
| `escapesBefore` | src/libgit2/attr_file.c:671-675 |
| `trimLoop` | src/libgit2/attr_file.c:661-682 |
| `unescapeLoop` | src/libgit2/attr_file.c:684-710 |
| `isWildcard` | src/util/util.h:248-251 |
| `Scan` | src/libgit2/attr_file.c:761-785 |
| `scanLoop` | src/libgit2/attr_file.c:764-785 |
| `Parsed` | src/libgit2/attr_file.c:717-835 |
| `finishParse` | src/libgit2/attr_file.c:787-832 |
| `parseOne` | src/libgit2/attr_file.c:717-835 |
| `sameText` | src/util/util.c |
| `doesNegatePattern` | src/libgit2/ignore.c:50-88 |
| `negatesOne` | src/libgit2/ignore.c:126-159 |
| `doesNegateRule` | src/libgit2/ignore.c:103-168 |
| `parseLoop` | src/libgit2/ignore.c:194-236 |
| `parseFile` | src/libgit2/ignore.c:170-243; attr_file.c:811-820 |
| `APath` | src/libgit2/attr_file.h |
| `afterSlash` | src/libgit2/attr_file.c:608-616 |
| `mkPath` | src/libgit2/attr_file.c:564-616 |
| `hasPrefix` | src/util/util.c:213-265 |
| `fnmatch` | src/libgit2/attr_file.c:477-536 |
| `applies` | src/libgit2/ignore.c:454-457 |
| `lookupInRules` | src/libgit2/ignore.c:446-464 |
| `lookupInFiles` | src/libgit2/ignore.c:485-495, 564-574 |
| `Ignores` | src/libgit2/ignore.h:26-37 |
| `parentDir` | src/util/str.h:188-194; str.c:616-620; fs_path.c; fs_path.c:566-572 |
| `walkUp` | src/util/fs_path.c:557-573 |
| `loadFile` | src/libgit2/ignore.c:245-266 |
| `loadGlobal` | src/libgit2/ignore.c:354-370 |
| `loadFiles` | src/libgit2/ignore.c:346-351 |
| `forPath` | src/libgit2/ignore.c:292-376 |
| `pushDir` | src/libgit2/ignore.c:378-387 |
| `popDir` | src/libgit2/ignore.c:389-422 |
| `lookup` | src/libgit2/ignore.c:466-501 |
| `moveUp` | src/libgit2/ignore.c:577-586 |
| `isIgnoredLoop` | src/libgit2/ignore.c:557-592 |
| `pathIsIgnored` | src/libgit2/ignore.c:533-601 |
| `addRules` | src/libgit2/ignore.c:503-515 |
| `defaultRules` | src/libgit2/ignore.c:20, 272-286, 517-531 |
| `enterDir` | src/libgit2/iterator.c:1146-1178 |
| `descend` | src/libgit2/iterator.c:1887-1893 |
| `iteratorIgnored` | src/libgit2/iterator.c:1726-1754 |

## Index

| definition | cites |
|---|---|
| `ENOTFOUND` | include/git2/errors.h:32 |
| `EEXISTS` | include/git2/errors.h:33 |
| `Entry` | include/git2/index.h:58-75 |
| `St` | src/libgit2/index.h:29-62 |
| `init` | src/libgit2/index.c:389-446 |
| `charAt` | (auxiliary) |
| `entryCmp` | src/libgit2/index.c:201-213 |
| `entrySrch` | src/libgit2/index.c:136-159 |
| `entrySrchPath` | src/libgit2/index.c:187-192 |
| `find` | src/libgit2/index.c:354-362 |
| `unmap` | src/libgit2/index.c:517, 1707 |
| `putmap` | src/libgit2/index.c:1421 |
| `removeEntry` | src/libgit2/index.c:510-533 |
| `Next` | src/libgit2/index.c:1111-1136 |
| `fileStep` | src/libgit2/index.c:1119-1136 |
| `hasFileName` | src/libgit2/index.c:1111-1136 |
| `subdirScan` | src/libgit2/index.c:1177-1187 |
| `hasDirName` | src/libgit2/index.c:1142-1191 |
| `checkCollision` | src/libgit2/index.c:1193-1204 |
| `Env` | index.c:944; index.c:1392 |
| `createMode` | src/libgit2/index.c:318-327; src/util/futils.h:282-283 |
| `validFilemode` | src/libgit2/index.c:1461-1472 |
| `insertSorted` | src/util/vector.c:149-182; src/libgit2/index.c:1276-1283 |
| `overwrite` | src/libgit2/index.c:1405-1412 |
| `existingPosition` | src/libgit2/index.c:1296-1308 |
| `place` | src/libgit2/index.c:1404-1428 |
| `insert` | src/libgit2/index.c:1344-1434 |
| `add` | src/libgit2/index.c:1677-1696 |
| `remove` | src/libgit2/index.c:1698-1718 |
| `clearLoop` | src/libgit2/index.c:535-563 |
| `clear` | src/libgit2/index.c:535-563 |
| `getBypath` | src/libgit2/index.c:866-883 |
| `getByindex` | src/libgit2/index.c:857-864 |
| `walkBack` | src/libgit2/index.c:1793-1798 |
| `findPath` | src/libgit2/index.c:1776-1803 |
| `Sides` | src/libgit2/index.c:1873-1922 |
| `Sides.set` | src/libgit2/index.c:1902-1917 |
| `sidesLoop` | src/libgit2/index.c:1892-1919 |
| `conflictGet` | src/libgit2/index.c:1924-1954 |
| `conflictRemoveLoop` | src/libgit2/index.c:1965-1979 |
| `conflictRemove` | src/libgit2/index.c:1956-1988 |
| `conflictCleanup` | src/libgit2/index.c:1990-1994 |
| `hasConflicts` | src/libgit2/index.c:1996-2009 |
| `dropStage0` | src/libgit2/index.c:1834-1846 |
| `addStages` | src/libgit2/index.c:1849-1860 |
| `bad` | src/libgit2/index.c:1824-1832 |
| `conflictAdd` | src/libgit2/index.c:1805-1871 |
| `removeDirLoop` | src/libgit2/index.c:1731-1745 |
| `removeDirectory` | src/libgit2/index.c:1720-1749; src/util/fs_path.c:285-297 |

## IndexExt

| definition | cites |
|---|---|
| `peek` | src/libgit2/index.c:2341; src/libgit2/tree-cache.c:97 |
| `advance` | src/libgit2/index.c:2333-2334; src/libgit2/tree-cache.c:117 |
| `strnlen` | src/util/posix.c:291-302 |
| `cstr` | src/libgit2/index.c:1014-1034; src/libgit2/tree-cache.c:228-250 |
| `bytesAt` | src/libgit2/index.c:2366; src/libgit2/tree-cache.c:116 |
| `number64` | src/util/util.c:34-136 |
| `number32` | src/util/util.c:138-160 |
| `readMode` | src/libgit2/index.c:2337-2355 |
| `readOid` | src/libgit2/index.c:2359-2371 |
| `readReucOne` | src/libgit2/index.c:2323-2372 |
| `reucLoop` | src/libgit2/index.c:2323-2377 |
| `readReuc` | src/libgit2/index.c:2310-2383 |
| `writeOid` | src/libgit2/index.c:3140-3143 |
| `writeReucOne` | src/libgit2/index.c:3125-3146 |
| `writeReuc` | src/libgit2/index.c:3148-3172 |
| `readName` | src/libgit2/index.c:2395-2410 |
| `readNamesOne` | src/libgit2/index.c:2412-2421 |
| `namesLoop` | src/libgit2/index.c:2412-2431 |
| `readNames` | src/libgit2/index.c:2386-2439 |
| `writeName` | src/libgit2/index.c:3074-3077 |
| `writeNamesOne` | src/libgit2/index.c:3070-3097 |
| `writeNames` | src/libgit2/index.c:3099-3123 |
| `memchr0` | src/libgit2/tree-cache.c:82 |
| `readHead` | src/libgit2/tree-cache.c:80-107 |
| `readTreeOid` | src/libgit2/tree-cache.c:110-118 |
| `readNode` | src/libgit2/tree-cache.c:68-144 |
| `readKids` | src/libgit2/tree-cache.c:121-135 |
| `readTree` | src/libgit2/tree-cache.c:146-165 |
| `writeTree` | src/libgit2/tree-cache.c:253-264 |
| `writeKids` | src/libgit2/tree-cache.c:262-263 |
| `Side` | src/libgit2/index.h:29-62 |
| `readExtData` | src/libgit2/index.c:2692-2716 |
| `readExtsData` | src/libgit2/index.c:2801-2809 |
| `extOk` | src/libgit2/index.c:2692-2716 |
| `sideExts` | src/libgit2/index.c:3234-3245 |

## IndexFile

| definition | cites |
|---|---|
| `Entry` | include/git2/index.h:58-75 |
| `Env` | src/libgit2/index.c:2502-2830 |
| `Ext` | src/libgit2/index.c:56-59 |
| `isExt` | include/git2/index.h:96 |
| `pathOffset` | src/libgit2/index.c:2441-2459 |
| `entrySize` | src/libgit2/index.c:2475-2500 |
| `cstrlen` | src/libgit2/index.c:2615, 2621 |
| `memchr0` | src/libgit2/index.c:2601 |
| `readFixed` | src/libgit2/index.c:2526-2590 |
| `plainLength` | src/libgit2/index.c:2594-2606 |
| `readPathPlain` | src/libgit2/index.c:2593-2609 |
| `readPathComp` | src/libgit2/index.c:2611-2638; include/git2/common.h:108 |
| `readPath` | src/libgit2/index.c:2593 |
| `finishEntry` | src/libgit2/index.c:2640-2655 |
| `readEntry` | src/libgit2/index.c:2502-2655 |
| `readEntries` | src/libgit2/index.c:2762-2791 |
| `readExtension` | src/libgit2/index.c:2674-2717 |
| `readExtensions` | src/libgit2/index.c:2801-2809 |
| `Parsed` | src/libgit2/index.h:29-62 |
| `parse` | src/libgit2/index.c:2719-2841 |
| `sameLen` | src/libgit2/index.c:2888-2895 |
| `fixedPart` | src/libgit2/index.c:2917-2999 |
| `writeEntry` | src/libgit2/index.c:2858-3021 |
| `writeEntries` | src/libgit2/index.c:3023-3056 |
| `adjust` | src/libgit2/index.c:2848-2852 |
| `writeExt` | src/libgit2/index.c:3058-3068 |
| `write` | src/libgit2/index.c:3206-3263 |

## IndexTree

| definition | cites |
|---|---|
| `EUNMERGED` | include/git2/errors.h:46 |
| `ENOTFOUND` | include/git2/errors.h:32 |
| `Env` | tree.c:60-61; index.c:944; src/libgit2/object.c:580-602 |
| `Odb` | src/libgit2/odb.c:1598-1641 |
| `readObj` | src/libgit2/odb.c:1384-1410 |
| `writeObj` | src/libgit2/odb.c:1598-1641 |
| `objectValid` | src/libgit2/object.c:580-602 |
| `treeEnv` | src/libgit2/tree.c:488-504 |
| `lookupTree` | src/libgit2/object.c:182-274; tree.c:445-457 |
| `Cache` | src/libgit2/tree-cache.h:17-27 |
| `Cache.name` | src/libgit2/tree-cache.h:17-27 |
| `Cache.count` | src/libgit2/tree-cache.h:17-27 |
| `Cache.oid` | src/libgit2/tree-cache.h:17-27 |
| `Cache.children` | src/libgit2/tree-cache.h:17-27 |
| `parts` | src/libgit2/tree-cache.c:37-50, 61-73 |
| `findChild` | src/libgit2/tree-cache.c:13-26 |
| `changeChild` | src/libgit2/tree-cache.c:43-48 |
| `invalidateParts` | src/libgit2/tree-cache.c:28-51 |
| `invalidate` | src/libgit2/tree-cache.c:28-51 |
| `getParts` | src/libgit2/tree-cache.c:61-73 |
| `cacheGet` | src/libgit2/tree-cache.c:53-74 |
| `readChildren` | src/libgit2/tree-cache.c:196-226; tree.c:35-38 |
| `readRec` | src/libgit2/tree-cache.c:167-229, 247-268 |
| `cacheReadTree` | src/libgit2/tree-cache.c:231-245 |
| `inDir` | src/libgit2/tree.c:466-468, 621-625 |
| `findNextDir` | src/libgit2/tree.c:459-474 |
| `fileName` | src/libgit2/tree.c:627-629 |
| `lastComp` | src/libgit2/tree.c:654-659 |
| `append` | src/libgit2/tree.c:559-584 |
| `enter` | src/libgit2/tree.c:599-606 |
| `finish` | src/libgit2/tree.c:674-678, 549-550 |
| `writeLoop` | src/libgit2/tree.c:608-686 |
| `St` | src/libgit2/index.h:29-62 |
| `writeAll` | src/libgit2/tree.c:717-738 |
| `writeIndex` | src/libgit2/tree.c:688-738; index.c:824-838 |
| `readTreeCb` | src/libgit2/index.c:3283-3327 |
| `walkLoop` | src/libgit2/tree.c:988-1035 |
| `treeWalk` | src/libgit2/tree.c:977-1036 |
| `mapOf` | src/libgit2/index.c:3353-3358 |
| `readTree` | src/libgit2/index.c:3329-3382 |
| `removedPaths` | src/libgit2/index.c:510-533 |
| `touch` | src/libgit2/index.c:1677-1696 |

## Indexer

| definition | cites |
|---|---|
| `PASSTHROUGH` | include/git2/errors.h:62 |
| `Env` | src/libgit2/indexer.c:40-77 |
| `Stream` | src/util/zstream.c:87-131; src/libgit2/indexer.c:65; src/libgit2/object.c:52-102; src/libgit2/indexer.c:40-77 |
| `St` | src/libgit2/indexer.c:40-77 |
| `hashPartially` | src/libgit2/indexer.c:643-681 |
| `lookup` | src/libgit2/pack.c:1012-1019 |
| `view` | src/libgit2/pack.c; src/libgit2/pack.h:108-137 |
| `objectId` | src/libgit2/indexer.c:281-315 |
| `known` | src/libgit2/indexer.c:385, 425 |
| `addExpected` | src/libgit2/indexer.c:378-395 |
| `checkConnectivity` | src/libgit2/indexer.c:397-476 |
| `crcObject` | src/libgit2/indexer.c:354-376 |
| `verified` | src/libgit2/indexer.c:509-518, 1155 |
| `storeObject` | src/libgit2/indexer.c:478-561 |
| `Step` | (auxiliary) |
| `stallAt` | src/libgit2/pack.c:856-857 |
| `finish` | src/libgit2/indexer.c:847-876 |
| `readBody` | src/libgit2/indexer.c:294-315, 338-352 |
| `readObject` | src/libgit2/indexer.c:788-877 |
| `readLoop` | src/libgit2/indexer.c:941-948 |
| `parseHeader` | src/libgit2/indexer.c:95-118 |
| `append` | src/libgit2/indexer.c:879-955 |
| `appendAll` | src/libgit2/indexer.c:879-955 |
| `entryEnd` | src/libgit2/pack.c:826-827 |
| `hashAndSave` | src/libgit2/indexer.c:598-631 |
| `resolveOne` | src/libgit2/indexer.c:1139-1172 |
| `resolvePass` | src/libgit2/indexer.c:1139-1172 |
| `firstRef` | src/libgit2/indexer.c:1088-1107 |
| `inject` | src/libgit2/indexer.c:988-1065 |
| `fixThinPack` | src/libgit2/indexer.c:1067-1127 |
| `resolveDeltas` | src/libgit2/indexer.c:1129-1184 |
| `rehash` | src/libgit2/indexer.c:1186-1227 |
| `Done` | src/libgit2/indexer.c:1310-1436 |
| `objectsCmp` | src/libgit2/indexer.c:120-126 |
| `writeOut` | src/libgit2/indexer.c:1282-1445 |
| `commit` | src/libgit2/indexer.c:1229-1445 |
| `index` | src/libgit2/indexer.c:249-257, 879-955, 1229-1445 |

## Loose

| definition | cites |
|---|---|
| `table` | src/libgit2/object.c:35-50 |
| `INVALID` | include/git2/types.h:75 |
| `type2string` | src/libgit2/object.c:307-313 |
| `typeIsValid` | src/libgit2/object.c:338-344 |
| `prefixEq` | src/util/util.c:216-238 |
| `stringn2typeLoop` | src/libgit2/object.c:330-333 |
| `stringn2type` | src/libgit2/object.c:323-336 |
| `toI64` | src/libgit2/odb.c:97 |
| `formatHeader` | src/libgit2/odb.c:86-107 |
| `parseHeader` | src/libgit2/odb_loose.c:148-199 |
| `MAX_HEADER_LEN` | src/libgit2/odb_loose.c:25 |
| `Zlib` | src/util/zstream.h:14-50 |
| `isZlib` | src/libgit2/odb_loose.c:201-210 |
| `Raw` | src/libgit2/odb.h:34-38 |
| `readStandard` | src/libgit2/odb_loose.c:276-343 |
| `readPacklike` | src/libgit2/odb_loose.c:228-274; src/libgit2/pack.c:413-448 |
| `readLoose` | src/libgit2/odb_loose.c:345-371 |
| `writeLoose` | src/libgit2/odb_loose.c:1082-1119 |
| `hashObj` | src/libgit2/odb.c:108-148 |

## Mailmap

| definition | cites |
|---|---|
| `entryCmp` | src/libgit2/mailmap.c:42-60 |
| `insert` | src/libgit2/mailmap.c:63-68, 208; src/util/vector.c:150-183 |
| `copied` | src/libgit2/mailmap.c:192-203 |
| `addEntryUnterminated` | src/libgit2/mailmap.c:180-216; src/util/str.c:658-670 |
| `addEntry` | src/libgit2/mailmap.c:218-228 |
| `addAll` | src/libgit2/mailmap.c:218-228 |
| `isSpace` | src/util/ctype_compat.h:43-46 |
| `Ctx` | src/libgit2/parse.h:16-28 |
| `lineLen` | src/util/util.c:324-328 |
| `ctxInit` | src/libgit2/parse.c:10-27 |
| `advanceLine` | src/libgit2/parse.c:35-41 |
| `advanceChars` | src/libgit2/parse.c:43-48 |
| `advanceWs` | src/libgit2/parse.c:65-79 |
| `isEol` | src/libgit2/mailmap.c:71-75; src/libgit2/parse.c:118-138 |
| `advanceUntil` | src/libgit2/mailmap.c:77-90 |
| `rtrim` | src/util/str.c:869-880 |
| `Parsed` | src/libgit2/mailmap.c:98-101 |
| `parseSecond` | src/libgit2/mailmap.c:131-148 |
| `parseEntry` | src/libgit2/mailmap.c:98-149 |
| `addLoop` | src/libgit2/mailmap.c:247-264 |
| `addBuffer` | src/libgit2/mailmap.c:230-273 |
| `fromBuffer` | src/libgit2/mailmap.c:275-287 |
| `addText` | src/libgit2/mailmap.c:289-351, 385-390 |
| `blobRev` | src/libgit2/mailmap.c:362-370 |
| `addFromRepository` | src/libgit2/mailmap.c:354-395 |
| `fromRepository` | src/libgit2/mailmap.c:397-409 |
| `scan` | src/libgit2/mailmap.c:437-449 |
| `lookup` | src/libgit2/mailmap.c:411-455 |
| `resolve` | src/libgit2/mailmap.c:457-477 |

## Merge

| definition | cites |
|---|---|
| `EMERGECONFLICT` | include/git2/errors.h:60 |
| `pickStep` | src/libgit2/iterator.c:2408-2434 |
| `pick` | src/libgit2/iterator.c:2402-2434 |
| `advance` | src/libgit2/iterator.c:2442-2452 |
| `walkLoop` | src/libgit2/iterator.c:2377-2462 |
| `walk` | src/libgit2/iterator.c:2377-2462 |
| `Status` | include/git2/diff.h |
| `Kind` | src/libgit2/merge.h:32-68 |
| `Diff` | src/libgit2/merge.h:85-98 |
| `zeroEntry` | src/libgit2/merge.c:1752 |
| `existing` | src/libgit2/merge.c:53 |
| `entryDiffers` | src/libgit2/merge.c:643-655 |
| `isDir` | src/util/posix.h:15-40 |
| `isLnk` | src/util/posix.h:37 |
| `isGitlink` | src/util/posix.h:19 |
| `deltaType` | src/libgit2/merge.c:1724-1743 |
| `detectType` | src/libgit2/merge.c:1686-1708 |
| `fromEntries` | src/libgit2/merge.c:1745-1766, 1777-1778 |
| `diffPath` | src/libgit2/merge.c:1619-1630 |
| `anyAddedOrModified` | src/libgit2/merge.c:1632-1642 |
| `pathIsPrefixed` | src/libgit2/merge.c:1644-1654 |
| `DiffList` | src/libgit2/merge.h:73-83; merge.c:64-68 |
| `detectDf` | src/libgit2/merge.c:1656-1682, 1779-1780 |
| `isModified` | src/libgit2/merge.c:1813-1822 |
| `queueDifference` | src/libgit2/merge.c:1807-1828 |
| `findDifferences` | src/libgit2/merge.c:1830-1840 |
| `Driver` | src/libgit2/merge.c:887-926, 966-996 |
| `trivialResult` | src/libgit2/merge.c:659-733 |
| `resolveTrivial` | src/libgit2/merge.c:659-743 |
| `resolveOneRemoved` | src/libgit2/merge.c:745-784 |
| `canResolveContents` | src/libgit2/merge.c:850-885 |
| `side` | src/libgit2/merge.c:958-963, 2028-2038 |
| `Out` | src/libgit2/merge.c:2099-2189 |
| `resolveContents` | src/libgit2/merge.c:928-1013 |
| `resolve` | src/libgit2/merge.c:1015-1047 |
| `resolveAll` | src/libgit2/merge.c:2159-2177 |
| `ordInsert` | src/util/vector.c:150-183 |
| `fill` | src/libgit2/index.c:1638-1674 |
| `addConflicts` | src/libgit2/merge.c:2027-2043 |
| `indexFromDiffList` | src/libgit2/merge.c:2008-2082; index.c:1387 |
| `mergeTrees` | src/libgit2/merge.c:2099-2189 |

## MergeFile

| definition | cites |
|---|---|
| `M` | deps/xdiff/xmerge.c:26-49 |
| `Files` | deps/xdiff/xmerge.c:679-688 |
| `range` | deps/xdiff/xmerge.c:115-124 |
| `touches` | deps/xdiff/xmerge.c:57 |
| `widen` | deps/xdiff/xmerge.c:58-62 |
| `push` | deps/xdiff/xmerge.c:51-80 |
| `sameLines` | deps/xdiff/xmerge.c:97-111 |
| `identical` | deps/xdiff/xmerge.c:571-576 |
| `first` | deps/xdiff/xmerge.c:537-544 |
| `second` | deps/xdiff/xmerge.c:554-561 |
| `conflict` | deps/xdiff/xmerge.c:577-600 |
| `restFirst` | deps/xdiff/xmerge.c:620-625 |
| `restSecond` | deps/xdiff/xmerge.c:636-641 |
| `advance` | deps/xdiff/xmerge.c:608-614 |
| `overlay` | deps/xdiff/xmerge.c:532-650 |
| `part` | deps/xdiff/xmerge.c:406-425 |
| `parts` | deps/xdiff/xmerge.c:399-426 |
| `refine` | deps/xdiff/xmerge.c:360-430 |
| `isAlnum` | deps/xdiff/xmerge.c:432-438 |
| `containAlnum` | deps/xdiff/xmerge.c:440-447 |
| `apart` | deps/xdiff/xmerge.c:482-485 |
| `mergeTwo` | deps/xdiff/xmerge.c:453-460 |
| `simplifyFrom` | deps/xdiff/xmerge.c:474-491 |
| `simplify` | deps/xdiff/xmerge.c:467-492 |
| `commonStart` | deps/xdiff/xmerge.c:340-346 |
| `trim` | deps/xdiff/xmerge.c:340-352 |
| `refineZ` | deps/xdiff/xmerge.c:331-354 |
| `Chunk` | deps/xdiff/xmerge.c:215-291 |
| `Chunk.size` | deps/xdiff/xmerge.c:215-216, 241-242, 259-260, 273-274 |
| `Chunk.bytes` | deps/xdiff/xmerge.c:218-228 |
| `addNewline` | deps/xdiff/xmerge.c:125-137 |
| `recsCopy` | deps/xdiff/xmerge.c:113-139 |
| `crBefore` | deps/xdiff/xmerge.c:162-163 |
| `isEolCrlf` | deps/xdiff/xmerge.c:156-178 |
| `lineBefore` | deps/xdiff/xmerge.c:185 |
| `isCrNeeded` | deps/xdiff/xmerge.c:180-193 |
| `Params` | deps/xdiff/xdiff.h:129-139 |
| `Params.marks` | deps/xdiff/xmerge.c:207-208 |
| `ancestorPart` | deps/xdiff/xmerge.c:238-256 |
| `conflictHunk` | deps/xdiff/xmerge.c:195-291 |
| `takeFirst` | deps/xdiff/xmerge.c:310-316 |
| `takeSecond` | deps/xdiff/xmerge.c:317-320 |
| `plainHunk` | deps/xdiff/xmerge.c:305-320 |
| `favored` | deps/xdiff/xmerge.c:302-303 |
| `fill` | deps/xdiff/xmerge.c:301-326 |
| `output` | deps/xdiff/xmerge.c:664-680 |
| `refined` | deps/xdiff/xmerge.c:652-662 |
| `doMerge` | deps/xdiff/xmerge.c:504-683 |
| `xdlMerge` | deps/xdiff/xmerge.c:685-739 |
| `Input` | include/git2/merge.h:33-49 |
| `Options` | include/git2/merge.h:195-226 |
| `Output` | include/git2/merge.h:255-275 |
| `isBinary` | src/libgit2/merge_file.c:178-188 |
| `favoredFile` | src/libgit2/merge_file.c:205-213 |
| `mergeBinary` | src/libgit2/merge_file.c:190-217 |
| `bestPathOf` | src/libgit2/merge.h:172-177 |
| `bestPath` | src/libgit2/merge.h:160-178 |
| `bestMode` | src/libgit2/merge.h:180-202 |
| `label` | src/libgit2/merge_file.c:92-110 |
| `styleOf` | src/libgit2/merge_file.c:122-125 |
| `paramsOf` | src/libgit2/merge_file.c:91-141 |
| `dataOf` | src/libgit2/merge_file.c:149-165 |
| `modeOf` | src/libgit2/merge_file.c:162-165 |
| `pathOf` | src/libgit2/merge_file.c:149-152 |
| `mergeText` | src/libgit2/merge_file.c:66-176 |
| `fromInputs` | src/libgit2/merge_file.c:219-232 |
| `normalize` | src/libgit2/merge_file.c:234-247 |
| `mergeFileWith` | src/libgit2/merge_file.c:249-270 |
| `mergeFile` | src/libgit2/merge_file.c:249-270 |

## Message

| definition | cites |
|---|---|
| `rtrim` | src/libgit2/message.c:12-22 |
| `lineLength` | src/libgit2/message.c:39-45 |
| `loop` | src/libgit2/message.c:38-62 |
| `prettify` | src/libgit2/message.c:26-75 |

## Midx

| definition | cites |
|---|---|
| `Kind` | src/libgit2/midx.c:33-37, 176-181 |
| `kindOf` | src/libgit2/midx.c:233-263 |
| `Chunk` | src/libgit2/midx.c:39-42 |
| `Chunks` | src/libgit2/midx.c:176-181 |
| `setLen` | src/libgit2/midx.c:229-230, 265 |
| `setOff` | src/libgit2/midx.c:235 |
| `chunkLoop` | src/libgit2/midx.c:217-264 |
| `File` | src/libgit2/midx.h:32-65 |
| `suffixed` | src/util/util.c:272-279 |
| `notAfter` | src/libgit2/midx.c:75 |
| `nameLoop` | src/libgit2/midx.c:68-83 |
| `parseNames` | src/libgit2/midx.c:52-85 |
| `parseFanout` | src/libgit2/midx.c:87-110 |
| `parseTable` | src/libgit2/midx.c:112-129 |
| `parseLarge` | src/libgit2/midx.c:148-162 |
| `parse` | src/libgit2/midx.c:164-285 |
| `needsRefresh` | src/libgit2/midx.c:343-378 |
| `Entry` | src/libgit2/midx.h:70-77 |
| `entryAt` | src/libgit2/midx.c:432-453 |
| `entryFind` | src/libgit2/midx.c:380-454 |
| `foreachLoop` | src/libgit2/midx.c:469-475 |
| `foreachEntry` | src/libgit2/midx.c:456-478 |
| `Pack` | src/libgit2/midx.c:570-595, 727-741 |
| `packCmp` | src/libgit2/midx.c:502-508 |
| `nameBytes` | src/libgit2/midx.c:743-755 |
| `allEntries` | src/libgit2/midx.c:727-760 |
| `entryCmp` | src/libgit2/midx.c:618-624 |
| `uniq` | src/util/vector.c:270-291 |
| `padTo4` | src/libgit2/midx.c:774-776 |
| `fanCount` | src/libgit2/midx.c:781-783 |
| `fanTable` | src/libgit2/midx.c:778-785 |
| `word` | src/libgit2/midx.c:801 |
| `offset64` | src/libgit2/midx.c:626-641 |
| `offsetLoop` | src/libgit2/midx.c:796-816 |
| `chunkHeader` | src/libgit2/midx.c:643-652 |
| `body` | src/libgit2/midx.c:818-870 |
| `write` | src/libgit2/midx.c:680-892 |

## Mwindow

| definition | cites |
|---|---|
| `Win` | src/libgit2/mwindow.h:20-26 |
| `Cfg` | src/libgit2/mwindow.c:17-31 |
| `St` | src/libgit2/mwindow.h:35-43 |
| `St.init` | src/libgit2/mwindow.c:47-55 |
| `add64` | src/libgit2/mwindow.c:349, 423-424 |
| `sub64` | src/libgit2/mwindow.c:156, 277, 404, 534 |
| `St.deref` | src/libgit2/mwindow.c:396, 526 |
| `St.windows` | src/libgit2/mwindow.h:28-33 |
| `St.change` | src/libgit2/mwindow.c:403-405, 430-434, 534 |
| `St.unmap` | src/libgit2/mwindow.c:153-163, 277-288 |
| `contains` | src/libgit2/mwindow.c:190-195 |
| `signed` | src/libgit2/mwindow.c:240 |
| `better` | src/libgit2/mwindow.c:240 |
| `scan` | src/libgit2/mwindow.c:208-253 |
| `lruWindow` | src/libgit2/mwindow.c:266-271 |
| `closeLru` | src/libgit2/mwindow.c:259-290 |
| `above` | src/libgit2/mwindow.c:351, 367 |
| `evict` | src/libgit2/mwindow.c:351-353, 367-368 |
| `freshWin` | src/libgit2/mwindow.c:336-347 |
| `freshLen` | src/libgit2/mwindow.c:345-349 |
| `newWindow` | src/libgit2/mwindow.c:328-385; src/util/map.h:38-41 |
| `finish` | src/libgit2/mwindow.c:429-444 |
| `search` | src/libgit2/mwindow.c:408-426 |
| `openWin` | src/libgit2/mwindow.c:391-445 |
| `closeWin` | src/libgit2/mwindow.c:524-537 |
| `freeLoop` | src/libgit2/mwindow.c:153-163 |
| `freeAllLocked` | src/libgit2/mwindow.c:132-166 |
| `freeAll` | src/libgit2/mwindow.c:168-182 |
| `lruFileLoop` | src/libgit2/mwindow.c:306-316 |
| `findLruFile` | src/libgit2/mwindow.c:299-325 |
| `limitFiles` | src/libgit2/mwindow.c:465-478 |
| `register` | src/libgit2/mwindow.c:447-503 |
| `deregister` | src/libgit2/mwindow.c:505-522 |
| `step` | src/libgit2/indexer.c:895 |
| `peek` | src/libgit2/mwindow.c:444 |
| `Run` | src/libgit2/mwindow.c:391-537 |
| `total` | src/libgit2/mwindow.c:349 |

## NetHost

| definition | cites |
|---|---|
| `skipTo` | src/util/net.c:67-79 |
| `matchesCert` | src/util/net.c:45-87 |
| `strlcmpEq` | src/util/util.h:161-165 |
| `wildcard` | src/util/net.c:1085-1092 |
| `matchesPattern` | src/util/net.c:1070-1118 |
| `matchesList` | src/util/net.c:1125-1142 |
| `matchesPatternList` | src/util/net.c:1125-1142 |
| `Res` | (auxiliary) |
| `cut` | src/util/net.c:919-930 |
| `second` | src/util/net.c:915-930; src/util/util.c:272-279 |
| `removeServiceSuffix` | src/util/net.c:889-931 |
| `schemeBad` | src/util/net.c:959-967 |
| `hostBad` | src/util/net.c:969-978 |
| `finish` | src/util/net.c:983-989 |
| `replaceUrl` | src/util/net.c:952-981 |
| `applyRedirect` | src/util/net.c:933-990 |

## NetUrl

| definition | cites |
|---|---|
| `Auth` | src/util/net.c:22-43 |
| `St` | src/util/net.c:190-192 |
| `isCasePrefix` | src/util/net.c:131-133 |
| `isSsh` | src/util/net.c:126-134 |
| `hexColon` | src/util/net.c:255-260 |
| `hostStep` | src/util/net.c:227-245 |
| `authority` | src/util/net.c:182-321 |
| `splitPath` | src/util/net.c:323-381 |
| `hexVal` | src/util/str.c:474-500 |
| `escape` | src/util/str.c:486-492 |
| `decode` | src/util/str.c:474-500 |
| `detach` | src/util/str.c:629-639 |
| `portOf` | src/util/net.c:110-124 |
| `finalize` | src/util/net.c:383-462 |
| `parseRest` | src/util/net.c:554-569 |
| `parse` | src/util/net.c:464-570 |
| `isDefaultPort` | src/util/net.c:997-1005 |
| `fmtUser` | src/util/net.c:1030-1039 |
| `fmtPort` | src/util/net.c:1043-1046 |
| `fmtQuery` | src/util/net.c:1050-1053 |
| `fmt` | src/util/net.c:1021-1056 |
| `serviceQuery` | src/util/net.c:824-833 |
| `stripEnd` | src/util/net.c:835-838 |
| `servicePath` | src/util/net.c:824-844 |
| `joinpath` | src/util/net.c:813-881 |

## Notes

| definition | cites |
|---|---|
| `EEXISTS` | include/git2/errors.h:33 |
| `ENOTFOUND` | include/git2/errors.h:32 |
| `ishex` | src/util/util.h:217-224 |
| `findLevel` | src/libgit2/notes.c:23-55; tree.c:35-39 |
| `findSubtree` | src/libgit2/notes.c:57-77 |
| `findBlob` | src/libgit2/notes.c:79-96 |
| `treeEdit` | src/libgit2/notes.c:115-122 |
| `treeWrite` | src/libgit2/notes.c:98-131 |
| `Act` | src/libgit2/notes.c:293-297, 389-391 |
| `existsCb` | src/libgit2/notes.c:200-213, 234-250, 252-270 |
| `notFoundCb` | src/libgit2/notes.c:215-232, 252-270 |
| `manip` | src/libgit2/notes.c:133-198 |
| `Ref` | src/libgit2/notes.c:434-453 |
| `Repo` | src/libgit2/repository.h |
| `NEnv` | src/libgit2/odb.c:1598-1641 |
| `envFor` | src/libgit2/object.c:580-602 |
| `cstr` | src/libgit2/notes.c:290, 337 |
| `target` | src/libgit2/oid.c:204-232 |
| `noteLookup` | src/libgit2/notes.c:344-375, 316-342 |
| `commitRead` | src/libgit2/notes.c:455-475 |
| `read` | src/libgit2/notes.c:477-495; commit.c:686 |
| `noteWrite` | src/libgit2/notes.c:272-314 |
| `commitCreate` | src/libgit2/notes.c:497-526 |
| `Ref.tree` | src/libgit2/notes.c:434-453, 544-548 |
| `create` | src/libgit2/notes.c:528-569 |
| `commitRemove` | src/libgit2/notes.c:571-594, 377-408 |
| `remove` | src/libgit2/notes.c:596-625; commit.c:686 |
| `strip` | src/libgit2/notes.c:681-698 |
| `processPath` | src/libgit2/notes.c:667-712 |
| `foreach` | src/libgit2/notes.c:714-739, 790-810 |
| `iterOpts` | src/libgit2/notes.c:758 |

## Odb

| definition | cites |
|---|---|
| `ENOTFOUND` | include/git2/errors.h:32 |
| `EAMBIGUOUS` | include/git2/errors.h:34 |
| `EINVALID` | include/git2/errors.h:57 |
| `PASSTHROUGH` | include/git2/errors.h:62 |
| `EMISMATCH` | include/git2/errors.h:65 |
| `MINPREFIXLEN` | include/git2/oid.h:101 |
| `Obj` | src/libgit2/odb.h:34-38 |
| `Ops` | include/git2/sys/odb_backend.h:27-103 |
| `Slot` | src/libgit2/odb.c:38-44 |
| `Db` | src/libgit2/odb.h:47-55 |
| `Cfg` | src/libgit2/odb.c:36, 60-66, 143-176 |
| `isZero` | src/libgit2/oid.c:292-309 |
| `cacheGet` | src/libgit2/cache.c:224-227 |
| `cacheStore` | src/libgit2/cache.c:212-216 |
| `firstLoop` | src/libgit2/odb.c:1336-1356 |
| `prefixLoop` | src/libgit2/odb.c:1054-1083 |
| `refreshLoop` | src/libgit2/odb.c:1918-1929 |
| `refresh` | src/libgit2/odb.c:1907-1935 |
| `again` | src/libgit2/odb.c:1398-1401, 1284-1287, 1557-1560, 1120-1122 |
| `finishRead` | src/libgit2/odb.c:1361-1381, 1504-1527 |
| `read1` | src/libgit2/odb.c:1313-1382 |
| `read` | src/libgit2/odb.c:1384-1408 |
| `exists1` | src/libgit2/odb.c:915-941 |
| `exists` | src/libgit2/odb.c:1011-1039 |
| `readHeader1` | src/libgit2/odb.c:1211-1258 |
| `readHeader` | src/libgit2/odb.c:1198-1209, 1260-1311 |
| `cpyPrefix` | src/libgit2/oid.h:234-245 |
| `readPrefix1` | src/libgit2/odb.c:1437-1528 |
| `readPrefix` | src/libgit2/odb.c:1530-1565 |
| `existsPrefix1` | src/libgit2/odb.c:1041-1091 |
| `existsPrefix` | src/libgit2/odb.c:1093-1127 |
| `touch` | src/libgit2/odb.c:986-989 |
| `freshen1` | src/libgit2/odb.c:966-994 |
| `freshen` | src/libgit2/odb.c:996-1009 |
| `writeLoop` | src/libgit2/odb.c:1619-1629 |
| `openStream` | src/libgit2/odb.c:1687-1693, 464-500 |
| `finishStream` | src/libgit2/odb.c:1642-1644, 446-462 |
| `streamLoop` | src/libgit2/odb.c:1639-1648, 1664-1705 |
| `write` | src/libgit2/odb.c:1598-1649 |
| `LFile` | src/libgit2/odb_loose.c:345-371 |
| `LooseB` | src/libgit2/odb_loose.c:46-54 |
| `locate` | src/libgit2/odb_loose.c:82-99, 451-462 |
| `scanShort` | src/libgit2/odb_loose.c:465-496 |
| `locateShort` | src/libgit2/odb_loose.c:499-576 |
| `looseRead` | src/libgit2/odb_loose.c:611-632 |
| `looseHeader` | src/libgit2/odb_loose.c:586-609 |
| `looseReadPrefix` | src/libgit2/odb_loose.c:634-673 |
| `looseWrite` | src/libgit2/odb_loose.c:1082-1119 |
| `looseFreshen` | src/libgit2/odb_loose.c:1121-1136; src/util/futils.c:942-953 |
| `Pk` | src/libgit2/pack.h:108-137 |
| `MidxF` | src/libgit2/midx.h:32-65 |
| `PDisk` | (auxiliary) |
| `PackB` | src/libgit2/odb_pack.c:27-35 |
| `Ent` | src/libgit2/pack.h:89-93 |
| `findIn` | src/libgit2/pack.c:1614-1664 |
| `findMidx` | src/libgit2/odb_pack.c:277-284, 323-334 |
| `isLast` | src/libgit2/odb_pack.c:291, 352 |
| `entryLoop` | src/libgit2/odb_pack.c:290-298 |
| `findLast` | src/libgit2/odb_pack.c:286-288, 336-337 |
| `entryFindPacks` | src/libgit2/odb_pack.c:286-301 |
| `entryFind` | src/libgit2/odb_pack.c:270-302 |
| `joinFound` | src/libgit2/odb_pack.c:324-333, 337-346, 355-364 |
| `prefixPacks` | src/libgit2/odb_pack.c:350-362 |
| `entryFindPrefix` | src/libgit2/odb_pack.c:304-369 |
| `packRead` | src/libgit2/odb_pack.c:588-605 |
| `packHeader` | src/libgit2/odb_pack.c:548-564 |
| `packReadPrefix` | src/libgit2/odb_pack.c:607-643 |
| `packHasPrefix` | src/libgit2/odb_pack.c:651-661 |
| `packFreshen` | src/libgit2/odb_pack.c:566-586 |
| `removeMidx` | src/libgit2/odb_pack.c:382-400 |
| `stemOf` | src/libgit2/odb_pack.c:243-247, 420-424 |
| `byName` | src/libgit2/odb_pack.c:197-203 |
| `processMidxPack` | src/libgit2/odb_pack.c:407-446 |
| `processMidx` | src/libgit2/odb_pack.c:489-505 |
| `openMidx` | src/libgit2/odb_pack.c:480-507 |
| `midxSame` | src/libgit2/midx.c:343-378; src/libgit2/odb_pack.c:470-476 |
| `refreshMidx` | src/libgit2/odb_pack.c:453-508 |
| `loadPack` | src/libgit2/odb_pack.c:235-268 |
| `loadPacks` | src/libgit2/odb_pack.c:538-540 |
| `insPack` | src/libgit2/odb_pack.c:205-232 |
| `sortPacks` | src/libgit2/odb_pack.c:543 |
| `packRefresh` | src/libgit2/odb_pack.c:517-546 |
| `Back` | (auxiliary) |
| `backOps` | src/libgit2/odb_loose.c:1193-1205; src/libgit2/odb_pack.c:905-917 |

## Oid

| definition | cites |
|---|---|
| `fromHexTable` | src/util/util.h:193-210 |
| `fromhex` | src/util/util.h:212-215 |
| `hexDigit` | src/libgit2/oid.h:160 |
| `orNibble` | src/libgit2/oid.c:56 |
| `prefixLoop` | src/libgit2/oid.c:51-57 |
| `fromPrefix` | src/libgit2/oid.c:31-62 |
| `fromString` | src/libgit2/oid.c:64-78 |
| `fmtLoop` | src/libgit2/oid.h:166-169 |
| `fmtSubstr` | src/libgit2/oid.h:154-173 |
| `nfmt` | src/libgit2/oid.c:112-131 |
| `fmt` | src/libgit2/oid.c:133-136 |
| `pathfmt` | src/libgit2/oid.c:138-149 |
| `tostr` | src/libgit2/oid.c:207-223 |
| `memcmp` | src/libgit2/oid.h:203 |
| `cmp` | src/libgit2/oid.c:242-245; src/libgit2/oid.h:198-232 |
| `ncmpLoop` | src/libgit2/oid.h:183-194 |
| `ncmp` | src/libgit2/oid.c:252-260; src/libgit2/oid.h:175-196; include/git2/oid.h |
| `strcmpLoop` | src/libgit2/oid.c:269-281 |
| `strcmp` | src/libgit2/oid.c:264-285 |
| `isZero` | src/libgit2/oid.c:292-308 |

## PQueue

| definition | cites |
|---|---|
| `PQ` | src/util/pqueue.h:14 |
| `init` | src/util/pqueue.c:16-34; src/util/vector.c:13 |
| `up` | src/util/pqueue.c:41-53 |
| `kidOf` | src/util/pqueue.c:61-70 |
| `down` | src/util/pqueue.c:59-79 |
| `pop` | src/util/pqueue.c:104-125 |
| `insert` | src/util/pqueue.c:82-102 |

## Pack

| definition | cites |
|---|---|
| `EBUFS` | include/git2/errors.h:26 |
| `COMMIT` | include/git2/types.h:75-83; src/libgit2/pack.h:31-34 |
| `TREE` | include/git2/types.h:77 |
| `BLOB` | include/git2/types.h:78 |
| `TAG` | include/git2/types.h:79 |
| `OFS_DELTA` | src/libgit2/pack.h:37 |
| `REF_DELTA` | src/libgit2/pack.h:38 |
| `OIDSZ` | include/git2/oid.h:43 |
| `headerLoop` | src/libgit2/pack.c:402-407 |
| `objectHeader` | src/libgit2/pack.c:388-410 |
| `unpackLoop` | src/libgit2/pack.c:428-443 |
| `unpackHeader1` | src/libgit2/pack.c:413-448 |
| `ofsLoop` | src/libgit2/pack.c:991-999 |
| `ofsBase` | src/libgit2/pack.c:987-1003 |
| `Pack` | src/libgit2/pack.h:108-137 |
| `Pack.window` | src/libgit2/pack.c:1008-1030; src/libgit2/mwindow.c:386-446 |
| `Pack.windowOpen` | src/libgit2/pack.c:338-377 |
| `unpackHeader` | src/libgit2/pack.c:450-496 |
| `getDeltaBase` | src/libgit2/pack.c:960-1039 |
| `Raw` | src/libgit2/odb.h:34-38 |
| `unpackCompressed` | src/libgit2/pack.c:886-954 |
| `Elem` | src/libgit2/pack.h:84-89 |
| `Cache` | src/libgit2/pack.c:107-122 |
| `isDelta` | src/libgit2/pack.c:535, 556, 638 |
| `chain` | src/libgit2/pack.c:583-663 |
| `applyLoop` | src/libgit2/pack.c:760-818; src/libgit2/pack.c:140-182 |
| `unpack` | src/libgit2/pack.c:665-831 |
| `resolveLoop` | src/libgit2/pack.c:556-570 |
| `readHeaderFromStream` | src/libgit2/delta.c:503-532; src/libgit2/pack.c:847-879 |
| `resolveHeader` | src/libgit2/pack.c:498-573 |

## PackIdx

| definition | cites |
|---|---|
| `Idx` | src/libgit2/pack.h:108-137 |
| `ENOTFOUND` | include/git2/errors.h |
| `EAMBIGUOUS` | include/git2/errors.h:34 |
| `fanLoop` | src/libgit2/pack.c:247-254 |
| `checkIndex` | src/libgit2/pack.c:199-303 |
| `nthOffset` | src/libgit2/pack.c:1261-1284 |
| `Table` | src/libgit2/pack.c:1493-1545 |
| `Table.get` | src/libgit2/pack.c:1540-1580 |
| `lookupId` | src/libgit2/pack.c:1466-1491 |
| `find` | src/libgit2/pack.c:1550-1585; src/libgit2/midx.c; src/libgit2/commit_graph.c |
| `findOffset` | src/libgit2/pack.c:1493-1612 |
| `foreachLoop` | src/libgit2/pack.c:1433-1452 |
| `foreachLoop1` | src/libgit2/pack.c:1453-1461 |
| `foreachEntry` | src/libgit2/pack.c:1391-1464 |
| `Entry` | src/libgit2/indexer.c |
| `Indexer` | src/libgit2/indexer.c:40-77 |
| `saveEntry` | src/libgit2/indexer.c:568-596 |
| `saveAll` | src/libgit2/indexer.c:568-596 |
| `offsetTable` | src/libgit2/indexer.c:1352-1363 |
| `longTable` | src/libgit2/indexer.c:1365-1376 |
| `writeIdx` | src/libgit2/indexer.c:1326-1387 |

## PackObjects

| definition | cites |
|---|---|
| `PACK_WINDOW` | src/libgit2/pack-objects.h:23 |
| `PACK_DEPTH` | src/libgit2/pack-objects.h:24 |
| `PObj` | src/libgit2/pack-objects.h:29-37 |
| `DState` | src/libgit2/pack-objects.h:39-47 |
| `DState.zero` | src/libgit2/pack-objects.c:241-242 |
| `Env` | src/libgit2/pack-objects.h:67-106 |
| `nameHashLoop` | src/libgit2/pack-objects.c:82-86 |
| `nameHash` | src/libgit2/pack-objects.c:70-88 |
| `Builder` | src/libgit2/pack-objects.h:81-83 |
| `Builder.new` | src/libgit2/pack-objects.c:135-186 |
| `grown` | src/libgit2/pack-objects.c:222-224 |
| `insertRead` | src/libgit2/pack-objects.c:241-250 |
| `insert` | src/libgit2/pack-objects.c:206-274 |
| `objAt` | src/libgit2/pack-objects.h:83 |
| `Try` | src/libgit2/pack-objects.c:753-895 |
| `maxSize` | src/libgit2/pack-objects.c:780-791 |
| `load` | src/libgit2/pack-objects.c:802-847 |
| `keeps` | src/libgit2/pack-objects.c:857-866 |
| `tryCreate` | src/libgit2/pack-objects.c:801-866 |
| `tryDelta` | src/libgit2/pack-objects.c:753-895 |
| `Slot` | src/libgit2/pack-objects.c:27-32 |
| `Win` | src/libgit2/pack-objects.c:965-966 |
| `Win.fresh` | src/libgit2/pack-objects.c:971-972 |
| `evict` | src/libgit2/pack-objects.c:997-1003 |
| `Cur` | src/libgit2/pack-objects.c:975-977 |
| `otherIdx` | src/libgit2/pack-objects.c:1024-1028 |
| `took` | src/libgit2/pack-objects.c:868-892 |
| `tryLoop` | src/libgit2/pack-objects.c:1021-1042 |
| `compress` | src/libgit2/pack-objects.c:1058-1075 |
| `rotateLoop` | src/libgit2/pack-objects.c:1092-1098 |
| `rotate` | src/libgit2/pack-objects.c:1089-1099 |
| `advance` | src/libgit2/pack-objects.c:1102-1106 |
| `place` | src/libgit2/pack-objects.c:1077-1106 |
| `opened` | src/libgit2/pack-objects.c:993-1003 |
| `search` | src/libgit2/pack-objects.c:991-1042 |
| `findStep` | src/libgit2/pack-objects.c:974-1107 |
| `upd` | src/libgit2/pack-objects.c:888-889 |
| `Job` | src/libgit2/pack-objects.c:1119-1140 |
| `Work` | src/libgit2/pack-objects.c:1185-1330 |
| `hashAt` | src/libgit2/pack-objects.c:1219-1220 |
| `extend` | src/libgit2/pack-objects.c:1218-1221 |
| `segment` | src/libgit2/pack-objects.c:1204-1221 |
| `partition` | src/libgit2/pack-objects.c:1202-1229 |
| `stealLoop` | src/libgit2/pack-objects.c:1281-1286 |
| `stealCount` | src/libgit2/pack-objects.c:1279-1297 |
| `bigger` | src/libgit2/pack-objects.c:1275 |
| `victim` | src/libgit2/pack-objects.c:1273-1276 |
| `Step` | src/libgit2/pack-objects.c:1142-1330 |
| `Steps` | src/libgit2/pack-objects.c:1246-1326 |
| `descending` | src/libgit2/pack-objects.c:706-725 |
| `typeSizeSort` | src/libgit2/pack-objects.c:701-727 |
| `candidates` | src/libgit2/pack-objects.c:1354-1362 |
| `startWork` | src/libgit2/pack-objects.c:1192-1229 |
| `Prepared` | src/libgit2/pack-objects.c:1336-1382 |
| `Links` | src/libgit2/pack-objects.h:40-43 |
| `connect` | src/libgit2/pack-objects.c:554-566 |
| `Order` | src/libgit2/pack-objects.c:531-532 |
| `addOne` | src/libgit2/pack-objects.c:451-458 |
| `addSiblings` | src/libgit2/pack-objects.c:470-472 |
| `climb` | src/libgit2/pack-objects.c:486-491 |
| `goOn` | src/libgit2/pack-objects.c:479-497 |
| `addLevel` | src/libgit2/pack-objects.c:465-473 |
| `descendants` | src/libgit2/pack-objects.c:460-500 |
| `rootOf` | src/libgit2/pack-objects.c:507-508 |
| `family` | src/libgit2/pack-objects.c:502-510 |
| `families` | src/libgit2/pack-objects.c:614-618 |
| `addWhere` | src/libgit2/pack-objects.c:583-612 |
| `lastUntagged` | src/libgit2/pack-objects.c:572-577 |
| `links` | src/libgit2/pack-objects.c:542-566 |
| `orderStart` | src/libgit2/pack-objects.c:572-612 |
| `writeOrder` | src/libgit2/pack-objects.c:529-631 |
| `getDelta` | src/libgit2/pack-objects.c:276-312 |
| `payload` | src/libgit2/pack-objects.c:329-347 |
| `baseId` | src/libgit2/pack-objects.c:355-359 |
| `compressed` | src/libgit2/pack-objects.c:362-386 |
| `entryBytes` | src/libgit2/pack-objects.c:314-407 |
| `WState` | src/libgit2/pack-objects.c:314-449 |
| `emit` | src/libgit2/pack-objects.c:350-352 |
| `release` | src/libgit2/pack-objects.c:395-398 |
| `writeObject` | src/libgit2/pack-objects.c:314-407 |
| `Status` | src/libgit2/pack-objects.c:409-414 |
| `finishOne` | src/libgit2/pack-objects.c:444-448 |
| `dropBase` | src/libgit2/pack-objects.c:439-441 |
| `writeOne` | src/libgit2/pack-objects.c:416-449 |
| `writeLoop` | src/libgit2/pack-objects.c:665-674 |
| `packHeader` | src/libgit2/pack-objects.c:654-658 |
| `writePack` | src/libgit2/pack-objects.c:633-693 |

## Patch

| definition | cites |
|---|---|
| `Origin` | include/git2/diff.h:726-742 |
| `Line` | include/git2/diff.h:763-771 |
| `Line.text` | src/libgit2/apply.c:46-55 |
| `Hunk` | src/libgit2/patch.h:16-20; include/git2/diff.h:688-697 |
| `EAPPLYFAIL` | include/git2/errors.h |
| `splitLines` | src/libgit2/apply.c:59-92 |
| `imageOf` | src/libgit2/apply.c:59-92 |
| `endsNl` | src/libgit2/apply.c:221 |
| `isEof` | src/libgit2/apply.c:217-219 |
| `shrink` | src/libgit2/apply.c:206-225 |
| `shrinkAll` | src/libgit2/apply.c:206-241 |
| `preimage` | src/libgit2/apply.c:225-235 |
| `postimage` | src/libgit2/apply.c:225-239 |
| `matchLines` | src/libgit2/apply.c:118-127 |
| `matchHunk` | src/libgit2/apply.c:103-131 |
| `findHunk` | src/libgit2/apply.c:133-149 |
| `makeRoom` | src/libgit2/apply.c:161-166; src/util/vector.c:342-382 |
| `put` | src/libgit2/apply.c:173-176 |
| `updateHunk` | src/libgit2/apply.c:151-180 |
| `State` | src/libgit2/apply.c:181-185 |
| `sizet` | (auxiliary) |
| `lineNum` | src/libgit2/apply.c:244-251 |
| `applyHunk` | src/libgit2/apply.c:188-267 |
| `applyAll` | src/libgit2/apply.c:282-287 |
| `render` | src/libgit2/apply.c:289-291 |
| `applyHunks` | src/libgit2/apply.c:269-297 |
| `BinaryType` | include/git2/diff.h:500-509 |
| `BinaryFile` | include/git2/diff.h:512-525 |
| `applyBinaryDelta` | src/libgit2/apply.c:299-345 |
| `Binary` | src/libgit2/diff.h:528-548 |
| `applyBinary` | src/libgit2/apply.c:347-387 |
| `Body` | src/libgit2/patch.h:22-39 |
| `applyPatch` | src/libgit2/apply.c:389-463 |
| `Change` | deps/xdiff/xdiffi.h |
| `getHunk` | deps/xdiff/xemit.c:52-94 |
| `noNewline` | deps/xdiff/xutils.c:49 |
| `emitRecord` | deps/xdiff/xutils.c:39-59; src/libgit2/diff_xdiff.c:155-198 |
| `emitRange` | deps/xdiff/xemit.c:287-289 |
| `emitChanges` | deps/xdiff/xemit.c:291-317 |
| `formatHeader` | deps/xdiff/xutils.c:343-390 |
| `isDigit` | src/util/ctype_compat.h |
| `scanDigits` | src/libgit2/diff_xdiff.c:22-24 |
| `scanInt` | src/libgit2/diff_xdiff.c:16-28 |
| `scanRange` | src/libgit2/diff_xdiff.c:35-41, 42-47 |
| `readHeader` | src/libgit2/diff_xdiff.c:30-56, 119-141 |
| `emitHunk` | deps/xdiff/xemit.c:174-325 |
| `emitDiff` | deps/xdiff/xemit.c:167-330 |
| `printLine` | src/libgit2/diff_print.c:792-812 |
| `printLines` | src/libgit2/diff_print.c:727-744 |
| `printHunks` | src/libgit2/diff_print.c:699-744 |
| `lineOf` | src/util/util.c:324-328 |
| `afterLine` | src/libgit2/parse.c:35-41 |
| `contains` | src/libgit2/parse.h:34-38 |
| `expect` | src/libgit2/parse.c:50-63 |
| `parseInt` | src/libgit2/patch_parse.c:498-507; src/libgit2/parse.c:90-103 |
| `parseRange` | src/libgit2/patch_parse.c:519-527, 529-537 |
| `parseHeader` | src/libgit2/patch_parse.c:509-561 |
| `dupLine` | src/util/alloc.c:63-74 |
| `eofFor` | src/libgit2/patch_parse.c:563-569 |
| `noInt` | src/libgit2/patch_parse.c:502 |
| `parseBody` | src/libgit2/patch_parse.c:582-673 |
| `parseHunkBody` | src/libgit2/patch_parse.c:571-715 |
| `parseHunks` | src/libgit2/patch_parse.c:911-936 |
| `parsePatch` | src/libgit2/patch_parse.c:911-936 |

## PathValid

| definition | cites |
|---|---|
| `Flags` | src/util/fs_path.h:616-625; src/libgit2/path.h:15-18; src/libgit2/path.c:296-300 |
| `workdirDefaults` | src/libgit2/path.h:21-22; src/util/fs_path.h:644-646 |
| `indexDefaults` | src/libgit2/path.h:25-26 |
| `treeEntryFlags` | src/libgit2/tree.c:60-63 |
| `peek` | (auxiliary) |
| `lower` | src/util/ctype_compat.h:59 |
| `ignored` | src/libgit2/path.c:31-49 |
| `nextHfs` | src/libgit2/path.c:20-59 |
| `hfsNeedle` | src/libgit2/path.c:73-77 |
| `validHfs` | src/libgit2/path.c:61-83 |
| `caseEq` | src/libgit2/path.c:106, 165, 170 |
| `reserved` | src/libgit2/repository.c:83-87 |
| `validNtfs` | src/libgit2/path.c:90-130 |
| `ntfsEnd` | src/libgit2/path.c:141-153 |
| `fallback` | src/libgit2/path.c:174-193 |
| `validNtfsGeneric` | src/libgit2/path.c:155-195 |
| `GitFile` | src/libgit2/path.c:335-343 |
| `GitFile.name` | src/libgit2/path.c:334-342 |
| `GitFile.hash` | src/libgit2/path.c:334-342 |
| `isGitfileNtfs` | src/libgit2/path.c:345-377 |
| `isGitfileHfs` | src/libgit2/path.c:369 |
| `commonPrefix` | src/libgit2/path.c:201-213 |
| `validRepoComponent` | src/libgit2/path.c:215-261 |
| `validDos` | src/util/fs_path.c:1560-1577 |
| `validChar` | src/util/fs_path.c:1579-1604 |
| `validComponent` | src/util/fs_path.c:1615-1654 |
| `scan` | src/util/fs_path.c:1683-1718 |
| `Protect` | src/libgit2/path.c:263-287 |
| `dotgitFlags` | src/libgit2/path.c:263-287 |
| `isValid` | src/libgit2/path.c:311-332 |
| `validEntryName` | src/libgit2/tree.c:57-62 |

## Pkt

| definition | cites |
|---|---|
| `EBUFS` | include/git2/errors.h:35 |
| `EEOF` | include/git2/errors.h:56 |
| `Ack` | src/libgit2/transports/smart.h:61-66 |
| `Pkt` | src/libgit2/transports/smart.h:68-135 |
| `Data` | src/libgit2/transports/smart.h:188-191 |
| `hexsize` | src/libgit2/oid.h:53-67 |
| `readOid` | src/libgit2/oid.c:31-60 |
| `ackStatus` | src/libgit2/transports/smart_pkt.c:70-83 |
| `ackPkt` | src/libgit2/transports/smart_pkt.c:46-94 |
| `errPkt` | src/libgit2/transports/smart_pkt.c:128-157 |
| `strncmpEq` | src/libgit2/transports/smart_pkt.c:239 |
| `strstrAfter` | src/libgit2/transports/smart_pkt.c:241 |
| `formatWord` | src/libgit2/transports/smart_pkt.c:246-251 |
| `findFormat` | src/libgit2/transports/smart_pkt.c:234-243 |
| `remoteType` | src/libgit2/transports/smart_pkt.c:234-260; src/libgit2/oid.h:93-116 |
| `setData` | src/libgit2/transports/smart_pkt.c:224-272 |
| `chomp` | src/libgit2/transports/smart_pkt.c:312, 356 |
| `refBody` | src/libgit2/transports/smart_pkt.c:292-331 |
| `refPkt` | src/libgit2/transports/smart_pkt.c:277-340 |
| `okPkt` | src/libgit2/transports/smart_pkt.c:342-373 |
| `ngPkt` | src/libgit2/transports/smart_pkt.c:375-427 |
| `unpackPkt` | src/libgit2/transports/smart_pkt.c:429-444 |
| `lenientLoop` | src/libgit2/transports/smart_pkt.c:471; src/libgit2/oid.c:48-57 |
| `shallowPkt` | src/libgit2/transports/smart_pkt.c:446-522 |
| `isxdigit` | src/util/ctype_compat.h:48-51 |
| `parseLen` | src/libgit2/transports/smart_pkt.c:524-560 |
| `prefixcmp` | src/util/util.c:241-255 |
| `keep` | src/libgit2/transports/smart_pkt.c:575-664 |
| `lastCases` | src/libgit2/transports/smart_pkt.c:652-656 |
| `parsePayload` | src/libgit2/transports/smart_pkt.c:632-660 |
| `parseLine` | src/libgit2/transports/smart_pkt.c:575-664 |
| `BUFSZ` | src/libgit2/transports/smart.h:20 |
| `Conn` | src/libgit2/transports/smart.h:158-178 |
| `Env` | src/libgit2/transports/smart.c:16-52 |
| `recv` | src/libgit2/transports/smart.c:16-52 |
| `recvPkt` | src/libgit2/transports/smart_protocol.c:265-309 |
| `recvData` | src/libgit2/transports/smart_protocol.c:275-276 |
| `recvAll` | src/libgit2/transports/smart_protocol.c:310-330 |
| `hexChar` | src/libgit2/transports/smart_pkt.c:748-862 |
| `hexNum` | src/libgit2/transports/smart_pkt.c:748-862 |
| `hex04` | src/libgit2/transports/smart_pkt.c:748-862 |
| `bufferFlush` | src/libgit2/transports/smart_pkt.c:691-694 |
| `bufferDone` | src/libgit2/transports/smart_pkt.c:867-870 |
| `bufferHave` | src/libgit2/transports/smart_pkt.c:845-865 |
| `Caps` | src/libgit2/transports/smart.h:137-154 |
| `capsText` | src/libgit2/transports/smart_pkt.c:707-733 |
| `wantWithCaps` | src/libgit2/transports/smart_pkt.c:696-755 |
| `Want` | include/git2/net.h:41-51 |
| `wantLoop` | src/libgit2/transports/smart_pkt.c:797-815 |
| `shallowLoop` | src/libgit2/transports/smart_pkt.c:818-833 |
| `deepen` | src/libgit2/transports/smart_pkt.c:835-845 |
| `firstWant` | src/libgit2/transports/smart_pkt.c:783-795 |
| `bufferWants` | src/libgit2/transports/smart_pkt.c:762-843 |

## Quote

| definition | cites |
|---|---|
| `special` | src/util/str.c:936-937 |
| `whitespace` | src/util/str.c:925 |
| `octal` | src/util/str.c:966 |
| `quoteByte` | src/util/str.c:948-973 |
| `firstSpecial` | src/util/str.c:935-941 |
| `quote` | src/util/str.c:924-987 |
| `rtrim` | src/util/str.c:869-880 |
| `at` | (auxiliary) |
| `simple` | src/util/str.c:1011-1023 |
| `unquoteLoop` | src/util/str.c:1000-1050 |
| `unquote` | src/util/str.c:990-1062 |
| `escapedSize` | src/util/str.c:1074-1083 |
| `escapeRun` | src/util/str.c:1097-1105 |
| `escapeLoop` | src/util/str.c:1089-1106 |
| `putsEscaped` | src/util/str.c:1064-1112 |
| `putsEscapeRegex` | src/util/str.h:283-286 |
| `unescape` | src/util/util.c:655-674; src/util/str.c:1113-1116 |
| `isXdigit` | src/util/ctype_compat.h:48-51 |
| `hexDecode` | src/util/str.c:472 |
| `decodeLoop` | src/util/str.c:485-497 |
| `decodePercent` | src/util/str.c:474-500 |

## Racy

| definition | cites |
|---|---|
| `IndexTime` | include/git2/index.h:29-34 |
| `Env` | cmake/SelectNsec.c; src/libgit2/diff_generate.c:528-533; src/libgit2/odb.c:208-268 |
| `int32` | (auxiliary) |
| `Entry` | include/git2/index.h:58-75; include/git2/index.h:86, 135-138 |
| `Stat` | src/libgit2/index.c:885-901 |
| `statOf` | src/libgit2/iterator.c:1509-1546 |
| `indexTime` | src/libgit2/index.c:888-893; src/libgit2/iterator.c:1520-1529 |
| `timeEq` | src/libgit2/index.h:87-98 |
| `newerThanIndex` | src/libgit2/index.h:105-122 |
| `fileMode` | src/util/futils.c:134-146 |
| `entryFromStat` | src/libgit2/index.c:885-901; src/libgit2/iterator.c:1509-1546 |
| `hashLoop` | src/libgit2/odb.c:242-247 |
| `hashFd` | src/libgit2/odb.c:208-268 |
| `hashFiltered` | src/libgit2/odb.c:270-300; src/util/futils.c:148-183 |
| `Verdict` | (auxiliary) |
| `newMode` | src/libgit2/diff_generate.c:828-832 |
| `confirm` | src/libgit2/diff_generate.c:914-930 |
| `maybeModified` | src/libgit2/diff_generate.c:803-949 |
| `createBlob` | src/libgit2/blob.c:185-270 |
| `mergeMode` | src/libgit2/index.c:329-341, 885-901 |
| `addEntry` | src/libgit2/index.c:960-1012 |
| `Doing` | (auxiliary) |
| `Mem` | src/libgit2/index.h:28-60 |
| `St` | (auxiliary) |
| `setMem` | (auxiliary) |
| `truncateRacilyClean` | src/libgit2/index.c:726-778 |
| `clearUptodate` | src/libgit2/index.c:3882-3916 |
| `updateIndex` | src/libgit2/diff_generate.c:706-719, 915-917 |
| `step` | (auxiliary) |
| `status` | src/libgit2/diff_generate.c:1465-1506 |
| `run` | src/libgit2/index.c:802-816, 1563-1617 |

## RefDb

| definition | cites |
|---|---|
| `EEXISTS` | include/git2/errors.h:33,51 |
| `EMODIFIED` | include/git2/errors.h:51 |
| `packedRefs` | src/libgit2/refs.h:31 |
| `symPrefix` | src/libgit2/refs.h:30 |
| `RefVal` | src/libgit2/refs.h:63-74 |
| `isspace` | src/util/ctype_compat.h:43-46 |
| `rtrim` | src/util/str.c:869-880 |
| `looseParseOid` | src/libgit2/refdb_fs.c:218-242 |
| `looseParse` | src/libgit2/refdb_fs.c:435-451 |
| `readBuffer` | src/util/futils.c:221-301 |
| `lookupPacked` | src/libgit2/refdb_fs.c:511-585, 684-762 |
| `lookupRef` | src/libgit2/refdb_fs.c:764-784 |
| `cmpOld` | src/libgit2/refdb_fs.c:1525-1546 |
| `cmpOldRef` | src/libgit2/refdb_fs.c:1514-1551 |
| `WriteJob` | src/libgit2/refdb_fs.c:1594-1617 |
| `RefVal.id` | src/libgit2/refs.c:340-348 |
| `RefVal.target` | src/libgit2/refs.c:360-368 |
| `looseText` | src/libgit2/refdb_fs.c:1193-1200 |
| `looseCommit` | src/libgit2/refdb_fs.c:1188-1205 |
| `bail` | src/libgit2/refdb_fs.c:1675-1677 |
| `writeNew` | src/libgit2/refdb_fs.c:1645-1673 |
| `writeTail` | src/libgit2/refdb_fs.c:1619-1678 |
| `WriteJob.run` | src/libgit2/refdb_fs.c:1594-1617 |
| `Ent` | src/libgit2/refdb_fs.c:46-51 |
| `reload` | src/libgit2/refdb_fs.c:113-216 |
| `upsertLoose` | src/libgit2/refdb_fs.c:279-285 |
| `isLockName` | src/libgit2/refdb_fs.c:300 |
| `addLoose` | src/libgit2/refdb_fs.c:269-288 |
| `loadLoose` | src/libgit2/refdb_fs.c:244-345 |
| `sortCache` | src/util/sortedcache.c:318-325; src/libgit2/refdb_fs.c:107-111 |
| `findPeel` | src/libgit2/refdb_fs.c:1267-1303 |
| `writeEntries` | src/libgit2/refdb_fs.c:1446-1458 |
| `cleanupOpt` | src/util/filebuf.c:101-130 |
| `removeOne` | src/libgit2/refdb_fs.c:1374-1400 |
| `removeLoose` | src/libgit2/refdb_fs.c:1379-1400; src/libgit2/refdb_fs.c:1348-1407 |
| `packedWrite` | src/libgit2/refdb_fs.c:1412-1481 |
| `PackJob` | src/libgit2/refdb_fs.c:1897-1910 |
| `PackJob.run` | src/libgit2/refdb_fs.c:1897-1910 |
| `DeleteJob` | src/libgit2/refdb_fs.c:1732-1753 |
| `packedDelete` | src/libgit2/refdb_fs.c:1483-1510 |
| `deleteLoose` | src/libgit2/refdb_fs.c:1812-1829 |
| `deleteBoth` | src/libgit2/refdb_fs.c:1806-1829 |
| `DeleteJob.run` | src/libgit2/refdb_fs.c:1732-1753, 1774-1830 |
| `Task` | src/libgit2/refdb_fs.c:764, 1594, 1732, 1897 |
| `Outcome` | src/libgit2/refdb_fs.c:764, 1594, 1732, 1897 |
| `Task.run` | src/libgit2/refdb_fs.c:764, 1594, 1732, 1897 |

## RefName

| definition | cites |
|---|---|
| `EINVALIDSPEC` | include/git2/errors.h:36,41 |
| `EBUFS` | include/git2/errors.h:35 |
| `Flags` | include/git2/refs.h:663-692; src/libgit2/refs.h:58 |
| `isValidRefChar` | src/libgit2/refs.c:820-836 |
| `segLoop` | src/libgit2/refs.c:851-870 |
| `lockExt` | src/util/filebuf.h:18 |
| `ensureSegmentValidity` | src/libgit2/refs.c:838-881 |
| `capsLoop` | src/libgit2/refs.c:891-899 |
| `isValidNormalizedName` | src/libgit2/refs.c:883-905 |
| `joinpath` | src/util/str.c:760-807 |
| `LoopEnd` | src/libgit2/refs.c:908-1040 |
| `loop` | src/libgit2/refs.c:952-997 |
| `normalize` | src/libgit2/refs.c:908-1040 |
| `normalizeName` | src/libgit2/refs.c:1042-1070 |
| `nameIsValid` | src/libgit2/refs.c:1341-1360 |

## RefPacked

| definition | cites |
|---|---|
| `ENOTFOUND` | include/git2/errors.h:32 |
| `memchr` | src/libgit2/refdb_fs.c:480, 614, 645, 704, 730 |
| `memrchr` | src/util/util.h:95-108 |
| `startOfRecord` | src/libgit2/refdb_fs.c:589-603 |
| `endOfRecord` | src/libgit2/refdb_fs.c:610-624 |
| `cmpRecord` | src/libgit2/refdb_fs.c:626-654 |
| `readRecord` | src/libgit2/refdb_fs.c:722-754 |
| `searchLoop` | src/libgit2/refdb_fs.c:709-757 |
| `skipHeader` | src/libgit2/refdb_fs.c:703-707 |
| `packedLookup` | src/libgit2/refdb_fs.c:699-762 |
| `PackRef` | src/libgit2/refdb_fs.c:43-48 |
| `upsert` | src/util/sortedcache.c:262-301; src/libgit2/refdb_fs.c:175-201; src/util/sortedcache.c:318-325 |
| `strchrNl` | src/libgit2/refdb_fs.c:152, 169, 189 |
| `oidAt` | src/libgit2/refdb_fs.c:163, 184, 726, 742 |
| `reloadPeel` | src/libgit2/refdb_fs.c:183-196 |
| `lineName` | src/libgit2/refdb_fs.c:171-175 |
| `reloadLoop` | src/libgit2/refdb_fs.c:157-201 |
| `reloadHeader` | src/libgit2/refdb_fs.c:151-155 |
| `traitsHeader` | src/libgit2/refdb_fs.c:468 |
| `hasInfix` | src/util/util.c |
| `setPeelingMode` | src/libgit2/refdb_fs.c:463-495 |
| `packedReload` | src/libgit2/refdb_fs.c:113-216 |
| `unsortedLookup` | src/libgit2/refdb_fs.c:656-682 |
| `lookup` | src/libgit2/refdb_fs.c:684-762 |
| `writeRef` | src/libgit2/refdb_fs.c:1308-1335 |
| `packedHeader` | src/libgit2/refs.h:32 |
| `writeRefs` | src/libgit2/refdb_fs.c:1445-1456 |
| `packedContent` | src/libgit2/refdb_fs.c:1442-1458 |

## RefTx

| definition | cites |
|---|---|
| `Env` | src/libgit2/refdb_fs.c:2284-2375 |
| `ENOTFOUND` | include/git2/errors.h:32 |
| `ELOCKED` | include/git2/errors.h:50 |
| `upd` | (auxiliary) |
| `pass` | src/libgit2/refdb_fs.c:1146-1240 |
| `Node` | src/libgit2/transaction.c:28-44 |
| `cleanup` | src/util/filebuf.c:101-130 |
| `backendLock` | src/libgit2/refdb.c:405-417; src/libgit2/refdb_fs.c:1146-1186 |
| `appendLog` | src/libgit2/refdb_fs.c:1658-1671 |
| `writeTail` | src/libgit2/refdb_fs.c:1619-1678 |
| `deleteTail` | src/libgit2/refdb_fs.c:1774-1830 |
| `find` | src/libgit2/transaction.c:145 |
| `putNode` | src/libgit2/transaction.c:129 |
| `lockRef` | src/libgit2/transaction.c:112-138 |
| `copyCommon` | src/libgit2/transaction.c:156-181 |
| `setValue` | src/libgit2/transaction.c:183-224 |
| `remove` | src/libgit2/transaction.c:226-238 |
| `setReflog` | src/libgit2/transaction.c:240-299 |
| `call` | src/libgit2/transaction.c:112-299 |
| `calls` | src/libgit2/transaction.c:112-299 |
| `updateTarget` | src/libgit2/transaction.c:301-331; src/libgit2/refdb.c:419-424; src/libgit2/refdb_fs.c:1242-1257 |
| `writeReflog` | src/libgit2/transaction.c:350-353; src/libgit2/refdb_fs.c:2246-2281 |
| `commitNode` | src/libgit2/transaction.c:348-364 |
| `commit` | src/libgit2/transaction.c:333-368 |
| `free` | src/libgit2/transaction.c:370-401 |

## Reflog

| definition | cites |
|---|---|
| `Entry` | src/libgit2/reflog.h:19-26 |
| `Log` | src/libgit2/reflog.h:28-33 |
| `inverseIndex` | src/libgit2/reflog.h:35-38 |
| `entrycount` | src/libgit2/reflog.c:148-152 |
| `byindex` | src/libgit2/reflog.c:154-163 |
| `zeroId` | src/libgit2/oid.h |
| `newlinesToSpaces` | src/libgit2/reflog.c:100-106 |
| `append` | src/libgit2/reflog.c:73-124 |
| `setOld` | src/libgit2/reflog.c:215-231 |
| `ENOTFOUND` | include/git2/errors.h |
| `drop` | src/libgit2/reflog.c:189-233 |
| `spacesBelow` | src/libgit2/refdb_fs.c:2203-2205 |
| `idText` | src/libgit2/refdb_fs.c:2184-2190 |
| `addMessage` | src/libgit2/refdb_fs.c:2197-2207 |
| `serialize` | src/libgit2/refdb_fs.c:2174-2213 |
| `write` | src/libgit2/refdb_fs.c:2246-2281 |
| `appendFile` | src/libgit2/refdb_fs.c:2329-2369 |
| `advanceOid` | src/libgit2/parse.c:105-116 |
| `advanceSpace` | src/libgit2/parse.c:42-56 |
| `lineMessage` | src/libgit2/refdb_fs.c:2037-2043 |
| `parseEntry` | src/libgit2/refdb_fs.c:2016-2052 |
| `parseLoop` | src/libgit2/refdb_fs.c:2013-2056 |
| `read` | src/libgit2/refdb_fs.c:2006-2059 |

## Refspec

| definition | cites |
|---|---|
| `glob` | src/libgit2/refspec.c:244-260 |
| `Spec` | src/libgit2/refspec.h:16-24 |
| `splitColon` | src/libgit2/refspec.c:42 |
| `nameFlags` | refspec.c:83-85 |
| `checkName` | refspec.c:95-98 |
| `checkFetch` | src/libgit2/refspec.c:88-112 |
| `checkPush` | src/libgit2/refspec.c:113-153 |
| `globRule` | src/libgit2/refspec.c:59-80 |
| `dstOf` | src/libgit2/refspec.c:59-65 |
| `parseSides` | src/libgit2/refspec.c:59-168 |
| `parseLhs` | src/libgit2/refspec.c:37-168 |
| `parse` | src/libgit2/refspec.c:16-177 |
| `srcMatches` | src/libgit2/refspec.c:247-253 |
| `dstMatches` | src/libgit2/refspec.c:255-261 |
| `isNegative` | src/libgit2/refspec.c:362-368 |
| `srcMatchesNegative` | src/libgit2/refspec.c:239-245 |
| `splitStar` | src/libgit2/refspec.c:277-278 |
| `transformPattern` | src/libgit2/refspec.c:263-296 |
| `transform` | src/libgit2/refspec.c:303-318 |
| `rtransform` | src/libgit2/refspec.c:325-340 |
| `serialize` | src/libgit2/refspec.c:342-352 |

## Revwalk

| definition | cites |
|---|---|
| `WS` | src/libgit2/commit_list.h:27-42 |
| `mark` | src/libgit2/commit_list.h:30-35 |
| `Opts` | src/libgit2/revwalk.c:745-772, 831-848 |
| `Opts.hides` | src/libgit2/revwalk.c:428, 495 |
| `parse` | src/libgit2/commit_list.c:170-218 |
| `kids` | src/libgit2/commit_list.h:38-41 |
| `markLoop` | src/libgit2/revwalk.c:357-377 |
| `markParents` | src/libgit2/revwalk.c:348-378 |
| `addHidden` | src/libgit2/revwalk.c:398-414 |
| `addShown` | src/libgit2/revwalk.c:421-438 |
| `addParents` | src/libgit2/revwalk.c:380-440 |
| `SLOP` | src/libgit2/revwalk.c:443 |
| `maxTime` | src/libgit2/revwalk.c:474 |
| `stillInteresting` | src/libgit2/revwalk.c:445-469 |
| `limitLoop` | src/libgit2/revwalk.c:471-505 |
| `limitList` | src/libgit2/revwalk.c:471-505 |
| `Deg` | src/libgit2/commit_list.h:37 |
| `setDeg` | (auxiliary) |
| `startDeg` | src/libgit2/revwalk.c:553-555 |
| `countKids` | src/libgit2/revwalk.c:563-567 |
| `countAll` | src/libgit2/revwalk.c:562-568 |
| `pushTips` | src/libgit2/revwalk.c:574-579 |
| `releaseKids` | src/libgit2/revwalk.c:593-601 |
| `topoLoop` | src/libgit2/revwalk.c:592-607 |
| `reverseQ` | src/util/pqueue.h:40 |
| `topoSort` | src/libgit2/revwalk.c:531-615 |
| `pushTimes` | src/libgit2/revwalk.c:284-308 |
| `popTimes` | src/libgit2/revwalk.c:294-308 |
| `timeSort` | src/libgit2/revwalk.c:284-308, 672-690 |
| `lazyLoop` | src/libgit2/revwalk.c:310-324 |
| `Pre` | src/libgit2/revwalk.h:21-49 |
| `pushOne` | src/libgit2/revwalk.c:69-104 |
| `pushes` | src/libgit2/revwalk.c:106-125 |
| `gather` | src/libgit2/revwalk.c:635-659 |
| `limited` | src/libgit2/revwalk.c:81, 763, 845 |
| `ordered` | src/libgit2/revwalk.c:294-345 |
| `walk` | src/libgit2/revwalk.c:617-701 |

## Shorten

| definition | cites |
|---|---|
| `Node` | src/libgit2/oid.c:319-322 |
| `zero` | src/libgit2/oid.c:336 |
| `Shorten` | src/libgit2/oid.c:324-328 |
| `SHRT_MAX` | limits.h; src/libgit2/oid.c:355 |
| `HEXSIZE` | include/git2/oid.h |
| `grow` | src/libgit2/oid.c:330-341, 348-351 |
| `setChild` | src/libgit2/oid.c:361, 499 |
| `pushLeaf` | src/libgit2/oid.c:343-367 |
| `new` | src/libgit2/oid.c:369-388 |
| `charAt` | (auxiliary) |
| `splitLeaf` | src/libgit2/oid.c:472-484 |
| `child` | src/libgit2/oid.c:486, 495 |
| `addLoop` | src/libgit2/oid.c:461-502 |
| `add` | src/libgit2/oid.c:444-508 |

## Sig

| definition | cites |
|---|---|
| `Signature` | include/git2/types.h |
| `EINVALID` | include/git2/errors.h |
| `isCrud` | src/libgit2/signature.c:44-55 |
| `trimmed` | src/libgit2/signature.c:57-68 |
| `cstr` | (auxiliary) |
| `hasBrackets` | src/libgit2/signature.c:39-42 |
| `new` | src/libgit2/signature.c:70-104 |
| `pad2` | src/libgit2/signature.c:439 |
| `writebuf` | src/libgit2/signature.c:425-442 |
| `lastIdx` | src/util/util.h |
| `zoneNumber` | src/libgit2/signature.c:373-380 |
| `parseZone` | src/libgit2/signature.c:368-394 |
| `parseTime` | src/libgit2/signature.c:353-395 |
| `parseLine` | src/libgit2/signature.c:341-395 |
| `parse` | src/libgit2/signature.c:322-398 |

## Sort

| definition | cites |
|---|---|
| `rd` | src/util/tsort.c |
| `wr` | src/util/tsort.c |
| `scanEq` | src/util/tsort.c:43-45 |
| `bsLoop` | src/util/tsort.c:50-69 |
| `binsearch` | src/util/tsort.c:26-68 |
| `shiftUp` | src/util/tsort.c:88-90 |
| `bisortStep` | src/util/tsort.c:79-92 |
| `bisort` | src/util/tsort.c:71-92 |
| `reverseElements` | src/util/tsort.c:108-118 |
| `runEnd` | src/util/tsort.c:141-143 |
| `countRun` | src/util/tsort.c:120-153 |
| `minrunLoop` | src/util/tsort.c:155-163 |
| `computeMinrun` | src/util/tsort.c:155-163 |
| `Run` | src/util/tsort.c:98-101 |
| `mergeLeft` | src/util/tsort.c:223-233 |
| `mergeRight` | src/util/tsort.c:239-249 |
| `copyOut` | src/util/tsort.c:219 |
| `merge` | src/util/tsort.c:203-251 |
| `checkInvariant` | src/util/tsort.c:165-180 |
| `collapse` | src/util/tsort.c:254-306 |
| `finishUp` | src/util/tsort.c:321-325 |
| `St` | src/util/tsort.c:96-105, 335-345 |
| `STACK_MAX` | src/util/tsort.c:340 |
| `STACK_OVERFLOW` | src/util/tsort.c:339 |
| `extendRun` | src/util/tsort.c:313-316 |
| `pushRun` | src/util/tsort.c:309-318 |
| `sortLoop` | src/util/tsort.c:361-374 |
| `tsort` | src/util/tsort.c:335-386 |
| `bsearchLoop` | src/util/util.c:568-579; src/util/array.h:108-120 |
| `bsearch` | src/util/util.c:557-585 |

## Strtol

| definition | cites |
|---|---|
| `isSpace` | src/util/ctype_compat.h:43-46 |
| `digitVal` | src/util/util.c:102-109 |
| `wrap64` | src/util/integer.h:80-175; src/util/util.c:113 |
| `fits64` | src/util/integer.h:80-175; src/util/util.c:113 |
| `fits32` | src/util/util.c:138-160 |
| `Acc` | src/util/util.c:34-40 |
| `accStep` | src/util/util.c:112-117 |
| `digitLoop` | src/util/util.c:101-118 |
| `detectBase` | src/util/util.c:74-81 |
| `skipPrefix` | src/util/util.c:93-96 |
| `strntol64` | src/util/util.c:34-136 |
| `strntol32` | src/util/util.c:138-160 |

## Tag

| definition | cites |
|---|---|
| `Tag` | src/libgit2/tag.h:16-25 |
| `typeName` | src/libgit2/object.c |
| `parseType` | src/libgit2/tag.c:95-106 |
| `parseTagger` | src/libgit2/tag.c:134-142 |
| `parseMessage` | src/libgit2/tag.c:144-164 |
| `parseName` | src/libgit2/tag.c:111-166 |
| `parseTypeLine` | src/libgit2/tag.c:86-109 |
| `tagParse` | src/libgit2/tag.c:68-166 |
| `annotation` | src/libgit2/tag.c:224-234 |
| `EEXISTS` | include/git2/errors.h |
| `World` | src/libgit2/tag.c:270-326 |
| `Created` | src/libgit2/tag.c:270-326 |
| `createAnnotated` | src/libgit2/tag.c:300-310 |
| `create` | src/libgit2/tag.c:262-339; src/libgit2/refs.c:187-252 |

## Tree

| definition | cites |
|---|---|
| `EINVALID` | include/git2/errors.h:57 |
| `ENOTFOUND` | include/git2/errors.h:32 |
| `OID_SIZE` | include/git2/oid.h:43 |
| `Entry` | src/libgit2/tree.h:19-24 |
| `Entry.flen` | src/libgit2/tree.h:21; tree.c:105 |
| `charAt` | (auxiliary) |
| `parseMode` | src/libgit2/tree.c:375-392 |
| `parseRest` | src/libgit2/tree.c:415-438 |
| `parseEntry` | src/libgit2/tree.c:407-439 |
| `parseLoop` | src/libgit2/tree.c:406-440 |
| `parseRaw` | src/libgit2/tree.c:394-443 |
| `Entry.isTree` | src/libgit2/tree.h:40-43 |
| `endChar` | src/util/fs_path.c:889-896 |
| `fsPathCmp` | src/util/fs_path.c:876-899 |
| `entrySortCmp` | src/libgit2/tree.c:64-73 |
| `octal` | src/libgit2/tree.c:540 |
| `writeEntry` | src/libgit2/tree.c:540-542 |
| `writeEntries` | src/libgit2/tree.c:537-547 |
| `sortEntries` | src/libgit2/tree.c:535; src/util/vector.c:137-146 |
| `Bld` | src/libgit2/tree.h:32-38 |
| `Env` | tree.c:60-61; tree.c:502 |
| `validFilemode` | src/libgit2/tree.c:26-33 |
| `validEntryName` | src/libgit2/tree.c:57-62 |
| `otypeFromMode` | src/libgit2/tree.c:476-486 |
| `checkEntry` | src/libgit2/tree.c:488-504 |
| `insert` | src/libgit2/tree.c:781-817 |
| `appendEntry` | src/libgit2/tree.c:560-586 |
| `new` | src/libgit2/tree.c:742-779 |
| `get` | src/libgit2/tree.c:819-835 |
| `remove` | src/libgit2/tree.c:837-848 |
| `filterStep` | src/libgit2/tree.c:870-875 |
| `filterLoop` | src/libgit2/tree.c:858-878 |
| `filter` | src/libgit2/tree.c:858-878 |
| `clear` | src/libgit2/tree.c:880-893 |
| `write` | src/libgit2/tree.c:506-557 |
| `homingCmp` | src/libgit2/tree.c:122-135 |
| `nameMatches` | tree.c:182-183 |
| `scanFwd` | src/libgit2/tree.c:179-191 |
| `scanBwd` | src/libgit2/tree.c:193-211 |
| `treeKeySearch` | src/libgit2/tree.c:152-217 |
| `entryByname` | src/libgit2/tree.c:294-314 |

## TreeDiff

| definition | cites |
|---|---|
| `Entry` | src/libgit2/tree.h:18-23 |
| `modeType` | src/util/futils.h:287-288 |
| `Entry.isTree` | src/libgit2/tree.h:39-42 |
| `Store` | src/libgit2/object_api.c |
| `Item` | src/libgit2/iterator.c:736-750 |
| `Options` | src/libgit2/iterator.h:55-69, 20-46 |
| `Opts` | src/libgit2/iterator.h:83-106 |
| `insertPath` | src/util/vector.c:346-354 |
| `sortPaths` | src/util/vector.c:346-354 |
| `nonEmpty` | src/libgit2/iterator.c:51-63 |
| `initCommon` | src/libgit2/iterator.c:48-69, 91-109, 153-167 |
| `Frame` | src/libgit2/iterator.c:425-446 |
| `Iter` | src/libgit2/iterator.c:448-459; iterator.h:83-106 |
| `newIter` | src/libgit2/iterator.c:908-920, 938-978 |
| `prefixcmp` | src/util/util.c:241-255 |
| `computePath` | src/libgit2/iterator.c:517-535 |
| `hasStarted` | src/libgit2/iterator.c:178-213 |
| `hasEnded` | src/libgit2/iterator.c:215-224 |
| `bareLen` | src/libgit2/iterator.c:241-245, 251-252 |
| `pathlistLoop` | src/libgit2/iterator.c:247-289 |
| `pathlistNextIs` | src/libgit2/iterator.c:229-292 |
| `Step` | src/libgit2/iterator.c:759-839 |
| `push` | src/libgit2/iterator.c:660-686, 537-594 |
| `visit` | src/libgit2/iterator.c:780-838 |
| `step` | src/libgit2/iterator.c:759-839 |
| `advanceLoop` | src/libgit2/iterator.c:759-845 |
| `advance` | src/libgit2/iterator.c:752-846 |
| `current` | src/libgit2/iterator.c:719-734 |
| `common` | src/util/str.c:1227-1232 |
| `commonPrefix` | src/util/str.c:1210-1239 |
| `beforeWild` | src/libgit2/pathspec.c:30-35 |
| `unescape` | src/util/util.c:655-674 |
| `pathspecPrefix` | src/libgit2/pathspec.c:21-46 |
| `PSpec` | src/libgit2/attr_file.h:66-72, 17-37 |
| `parseSpec` | src/libgit2/pathspec.c:79-100; attr_file.c:836-850 |
| `vinit` | src/libgit2/pathspec.c:49-103 |
| `specMatches` | src/libgit2/pathspec.c:143-156 |
| `specNoMatch` | src/libgit2/pathspec.c:161 |
| `matchOne` | src/libgit2/pathspec.c:138-171 |
| `matchAt` | src/libgit2/pathspec.c:173-193 |
| `pathspecMatch` | src/libgit2/pathspec.c:196-230 |
| `Status` | include/git2/diff.h:198-210 |
| `File` | include/git2/diff.h:263-270 |
| `Delta` | include/git2/diff.h:331-338 |
| `DOptions` | include/git2/diff.h:28-190 |
| `Diff` | src/libgit2/diff_generate.c:29-36 |
| `applyOptions` | src/libgit2/diff_generate.c:493-513 |
| `zeroId` | src/libgit2/oid.h |
| `isZero` | src/libgit2/oid.c:292-308 |
| `noFile` | src/libgit2/diff_generate.c:43, 64-65 |
| `allocStatus` | src/libgit2/diff_generate.c:55-62 |
| `diffPathspecMatch` | src/libgit2/diff_generate.c:97-121 |
| `fromOne` | src/libgit2/diff_generate.c:143-219 |
| `fromTwo` | src/libgit2/diff_generate.c:221-286 |
| `isForItem` | src/libgit2/diff_generate.c:296-320 |
| `changeLast` | src/libgit2/diff_generate.c:288-323, 1190-1196, 1220-1225 |
| `maybeModified` | src/libgit2/diff_generate.c:803-949 |
| `entryIsPrefixed` | src/libgit2/diff_generate.c:951-966 |
| `unmatchedNew` | src/libgit2/diff_generate.c:1045-1057, 1133-1135, 1177-1197 |
| `unmatchedOld` | src/libgit2/diff_generate.c:1202-1225 |
| `Info` | src/libgit2/diff_generate.c:726-734 |
| `diffLoop` | src/libgit2/diff_generate.c:1288-1320 |
| `fromIterators` | src/libgit2/diff_generate.c:1254-1334 |
| `iterOptions` | src/libgit2/diff_generate.c:1336-1360 |
| `treeToTree` | src/libgit2/diff_generate.c:1362-1404 |

## Utf8

| definition | cites |
|---|---|
| `utf8class` | src/util/utf8.c:37-54 |
| `rd` | src/util/utf8.c |
| `contLoop` | src/util/utf8.c:68-71 |
| `charlen` | src/util/utf8.c:56-74 |
| `MINUS1` | src/util/utf8.c:56-115 |
| `codepoint` | src/util/utf8.c:86-109 |
| `iterate` | src/util/utf8.c:76-115 |
| `charLengthLoop` | src/util/utf8.c:118-134 |
| `charLength` | src/util/utf8.c:117-133 |
| `validLoop` | src/util/utf8.c:136-151 |
| `validBufLength` | src/util/utf8.c:135-150 |

## Varint

| definition | cites |
|---|---|
| `msb7` | src/util/util.h:21 |
| `decodeLoop` | src/util/varint.c:15-25 |
| `decode` | src/util/varint.c:10-28 |
| `encodeLoop` | src/util/varint.c:35-36 |
| `encodeBytes` | src/util/varint.c:30-36 |
| `encode` | src/util/varint.c:30-43 |

## Vec

| definition | cites |
|---|---|
| `SIZE_MAX` | stdint.h |
| `PTR` | src/util/vector.c:19-45 |
| `MIN_ALLOCSIZE` | src/util/vector.c:13 |
| `ENOTFOUND` | include/git2/errors.h:32 |
| `null` | (auxiliary) |
| `Vec` | src/util/vector.h:20-26 |
| `rd` | src/util/vector.c |
| `wr` | src/util/vector.c |
| `memmove` | src/util/vector.c:130-400 |
| `memset` | src/util/vector.c:31-45, 342-360 |
| `computeNewSize` | src/util/vector.c:15-29 |
| `resize` | src/util/vector.c:31-45 |
| `sizeHint` | src/util/vector.c:47-52 |
| `init` | src/util/vector.c:106-117 |
| `grow` | src/util/vector.c:139-141 |
| `insert` | src/util/vector.c:135-148 |
| `sort` | src/util/vector.c:185-193 |
| `insertSorted` | src/util/vector.c:150-183 |
| `bsearch` | src/util/vector.c:195-212 |
| `search` | src/util/vector.c:214-233 |
| `remove` | src/util/vector.c:245-262 |
| `pop` | src/util/vector.c:264-268 |
| `uniqLoop` | src/util/vector.c:281-288 |
| `uniq` | src/util/vector.c:270-291 |
| `matchLoop` | src/util/vector.c:300-305 |
| `removeMatching` | src/util/vector.c:293-308 |
| `clear` | src/util/vector.c:310-314 |
| `resizeTo` | src/util/vector.c:327-340 |
| `insertNull` | src/util/vector.c:342-360 |
| `removeRange` | src/util/vector.c:362-382 |
| `set` | src/util/vector.c:384-397 |
| `reverseLoop` | src/util/vector.c:424-430 |
| `reverse` | src/util/vector.c:414-431 |

## Wildmatch

| definition | cites |
|---|---|
| `Flags` | src/util/wildmatch.h:14-15 |
| `R` | src/util/wildmatch.h:17-20 |
| `isGlobSpecial` | src/util/wildmatch.c:42-58 |
| `isUpper` | ctype.h; src/util/wildmatch.c:60-93, 105-300 |
| `isLower` | ctype.h; src/util/wildmatch.c:60-93, 105-300 |
| `isDigit` | ctype.h; src/util/wildmatch.c:60-93, 105-300 |
| `isAlpha` | ctype.h; src/util/wildmatch.c:60-93, 105-300 |
| `isAlnum` | ctype.h; src/util/wildmatch.c:60-93, 105-300 |
| `isBlank` | ctype.h; src/util/wildmatch.c:60-93, 105-300 |
| `isCntrl` | ctype.h; src/util/wildmatch.c:60-93, 105-300 |
| `isPrint` | ctype.h; src/util/wildmatch.c:60-93, 105-300 |
| `isSpace` | ctype.h; src/util/wildmatch.c:60-93, 105-300 |
| `isGraph` | ctype.h; src/util/wildmatch.c:60-93, 105-300 |
| `isPunct` | ctype.h; src/util/wildmatch.c:60-93, 105-300 |
| `isXdigit` | ctype.h; src/util/wildmatch.c:60-93, 105-300 |
| `toLower` | ctype.h; src/util/wildmatch.c:60-93, 105-300 |
| `toUpper` | ctype.h; src/util/wildmatch.c:60-93, 105-300 |
| `fold` | src/util/wildmatch.c:111-114 |
| `charClass` | src/util/wildmatch.c:262-303 |
| `inRange` | src/util/wildmatch.c:238-244 |
| `bracketStep` | src/util/wildmatch.c:219-307 |
| `bracketLoop` | src/util/wildmatch.c:219-307 |
| `bracket` | src/util/wildmatch.c:204-218 |
| `skipTo` | src/util/wildmatch.c:179-186 |
| `advance` | src/util/wildmatch.c:174-186 |
| `starLoop` | src/util/wildmatch.c:162-199 |
| `matchSlash` | src/util/wildmatch.c:127-155 |
| `dowild` | src/util/wildmatch.c:97-314 |
| `wildmatch` | src/util/wildmatch.c:317-320 |

## Xdiff

| definition | cites |
|---|---|
| `hashRecord` | deps/xdiff/xutils.c:297-311 |
| `Cls` | deps/xdiff/xprepare.c:33-40 |
| `Cls.count` | deps/xdiff/xprepare.c:140 |
| `classify` | deps/xdiff/xprepare.c:109-149 |
| `prepareCtx` | deps/xdiff/xprepare.c:178-195 |
| `commonPrefix` | deps/xdiff/xprepare.c:432-435 |
| `trimEnds` | deps/xdiff/xprepare.c:426-449 |
| `bogosqrt` | deps/xdiff/xutils.c:26-36 |
| `scanRun` | deps/xdiff/xprepare.c:323-330, 340-347 |
| `cleanMmatch` | deps/xdiff/xprepare.c:303-358 |
| `disOf` | deps/xdiff/xprepare.c:377-383 |
| `eqLimit` | deps/xdiff/xprepare.c:377-378 |
| `matchesOf` | deps/xdiff/xprepare.c:380-381 |
| `disList` | deps/xdiff/xprepare.c:372-391 |
| `stays` | deps/xdiff/xprepare.c:395-396 |
| `cleanup` | deps/xdiff/xprepare.c:393-415 |
| `Env` | deps/xdiff/xdiffi.h |
| `KV` | (auxiliary) |
| `KV.set` | (auxiliary) |
| `same` | (auxiliary) |
| `snake` | deps/xdiff/xdiffi.c:90 |
| `bsnake` | deps/xdiff/xdiffi.c:127 |
| `diags` | (auxiliary) |
| `Box` | (auxiliary) |
| `Met` | (auxiliary) |
| `forward` | deps/xdiff/xdiffi.c:83-100 |
| `backward` | deps/xdiff/xdiffi.c:120-137 |
| `Spl` | deps/xdiff/xdiffi.c:31-34 |
| `snakeBefore` | deps/xdiff/xdiffi.c:162-168 |
| `snakeAfter` | deps/xdiff/xdiffi.c:186-192 |
| `away` | deps/xdiff/xdiffi.c:154, 178 |
| `heurForward` | deps/xdiff/xdiffi.c:153-170 |
| `heurBackward` | deps/xdiff/xdiffi.c:177-194 |
| `furthest` | deps/xdiff/xdiffi.c:210-220 |
| `LINE_MAX` | deps/xdiff/xdiffi.c:27 |
| `nearest` | deps/xdiff/xdiffi.c:222-232 |
| `St` | deps/xdiff/xdiffi.c:48-60 |
| `giveUp` | deps/xdiff/xdiffi.c:139-246 |
| `grow` | deps/xdiff/xdiffi.c:74-81, 111-118 |
| `splitLoop` | deps/xdiff/xdiffi.c:62-247; deps/xdiff/xdiffi.c:339-348 |
| `split` | deps/xdiff/xdiffi.c:45-248 |
| `front` | deps/xdiff/xdiffi.c:264 |
| `rear` | deps/xdiff/xdiffi.c:265 |
| `mark` | deps/xdiff/xdiffi.c:275-276, 281-282 |
| `recsCmp` | deps/xdiff/xdiffi.c:256-309 |
| `doDiff` | deps/xdiff/xdiffi.c:312-374; deps/xdiff/xprepare.c:245-293 |
| `Group` | deps/xdiff/xdiffi.c:699-711 |
| `scanDown` | deps/xdiff/xdiffi.c:719-720, 733, 767-768 |
| `scanUp` | deps/xdiff/xdiffi.c:749, 788-789, 952-953 |
| `groupInit` | deps/xdiff/xdiffi.c:716-721 |
| `groupNext` | deps/xdiff/xdiffi.c:727-737 |
| `groupPrev` | deps/xdiff/xdiffi.c:743-753 |
| `slideDown` | deps/xdiff/xdiffi.c:760-774 |
| `slideUp` | deps/xdiff/xdiffi.c:781-795 |
| `Co` | (auxiliary) |
| `stepUp` | deps/xdiff/xdiffi.c:834-836, 876-879, 919-922 |
| `stepDown` | deps/xdiff/xdiffi.c:849-852 |
| `upLoop` | deps/xdiff/xdiffi.c:834-836 |
| `downLoop` | deps/xdiff/xdiffi.c:848-856 |
| `Moved` | (auxiliary) |
| `shiftLoop` | deps/xdiff/xdiffi.c:822-857 |
| `matchLoop` | deps/xdiff/xdiffi.c:875-880 |
| `bestLoop` | deps/xdiff/xdiffi.c:918-923 |
| `isspace` | (auxiliary) |
| `getIndent` | deps/xdiff/xdiffi.c:412-434 |
| `measure` | deps/xdiff/xdiffi.c:506-515, 519-527 |
| `addSplit` | deps/xdiff/xdiffi.c:490-528, 597-673 |
| `scoreCmp` | deps/xdiff/xdiffi.c:675-682 |
| `bestShift` | deps/xdiff/xdiffi.c:902-916 |
| `firstShift` | deps/xdiff/xdiffi.c:897-901 |
| `compactGroup` | deps/xdiff/xdiffi.c:817-924 |
| `compactLoop` | deps/xdiff/xdiffi.c:810-937 |
| `changeCompact` | deps/xdiff/xdiffi.c:802-938 |
| `buildLoop` | deps/xdiff/xdiffi.c:949-959 |
| `buildScript` | deps/xdiff/xdiffi.c:941-964 |
| `script` | deps/xdiff/xdiffi.c:1054-1069 |
| `diffText` | src/libgit2/diff_xdiff.c:201-235; deps/xdiff/xdiffi.c:1054-1089 |
